import Verif.Lemma.Follow
/-! Simulation between programs on the object graph and the document store. -/
namespace LP
open Heap

/-- Every variable in scope is the root of its own tree, which denotes the variable's document. -/
structure Sim (s : DState) (st : Store) : Prop where
  wf : WF s.heap
  dom : ∀ x, s.env x = none ↔ st x = none
  rep : ∀ x a t, s.env x = some a → st x = some t → Rep s.heap (fun z => z < s.heap.next) t a
  root : ∀ x a, s.env x = some a → a < s.heap.next ∧ NoParent s.heap a
  inj : ∀ x y a, s.env x = some a → s.env y = some a → x = y

theorem Sim.get {s : DState} {st : Store} (h : Sim s st) {x a : Nat} (hx : s.env x = some a) :
    ∃ t, st x = some t ∧ Rep s.heap (fun z => z < s.heap.next) t a := by
  cases ht : st x with
  | none => rw [(h.dom x).mpr ht] at hx; cases hx
  | some t => exact ⟨t, rfl, h.rep x a t hx ht⟩

/-- The result of a statement agrees with the specification. -/
def Agrees (r : Res DState Unit) (q : Store × Option Exn) : Prop :=
  ∃ s', (r = match q.2 with | none => .ok () s' | some e => .throw e s') ∧ Sim s' q.1

theorem Sim.edit {s : DState} {st : Store} (hs : Sim s st) {x a : Nat} {t : Tree} (hx : s.env x = some a) (ht : st x = some t)
    {h' : Heap} {t' : Tree} (g : Good s.heap a h' t') : Sim ⟨h', s.env⟩ (st.set x t') := by
  obtain ⟨han, hap⟩ := hs.root x a hx
  refine ⟨g.wf, ?_, ?_, ?_, fun y z b => hs.inj y z b⟩
  · intro y; simp only [Store.set]
    split
    · rename_i e; subst e; simp [hx]
    · exact hs.dom y
  · intro y b u hy hu
    simp only [Store.set] at hu
    split at hu
    · rename_i e; subst e
      simp only [Option.some.injEq] at hu; subst hu
      rw [hx] at hy; simp only [Option.some.injEq] at hy; subst hy
      exact g.rep
    · rename_i hne
      obtain ⟨hbn, hbp⟩ := hs.root y b hy
      refine Rep.carry (hs.rep y b u hy hu) g.mono ?_
      intro z hz hrz
      refine g.frame z hz (hs.wf.roots hbn han hbp hap ?_ hrz)
      intro e; subst e; exact hne (hs.inj y x b hy hx)
  · intro y b hy
    obtain ⟨hbn, hbp⟩ := hs.root y b hy
    exact ⟨Nat.lt_of_lt_of_le hbn g.mono, g.roots hbn hbp⟩

theorem Sim.does {s : DState} {st : Store} (hs : Sim s st) {x a : Nat} {t : Tree} (hx : s.env x = some a) (ht : st x = some t)
    {m : M Heap Unit} {F : Tree.Edit} (hd : Does m s.heap a (F t)) : Agrees (Cmd.onHeap m s) (st.edit x F) := by
  obtain ⟨h', hr, g⟩ := hd
  refine ⟨⟨h', s.env⟩, ?_, ?_⟩
  · simp only [Cmd.onHeap, hr, Store.edit, ht]; split <;> rename_i e <;> split at e <;> simp_all
  · simp only [Store.edit, ht]; exact hs.edit hx ht g

/-- Binding a variable to a new root. -/
theorem Sim.bind {s : DState} {st : Store} (hs : Sim s st) {h' : Heap} {a : Nat} {t : Tree} (x : Nat) (w : WF h')
    (hext : Ext s.heap h') (ha : s.heap.next ≤ a) (hr : Rep h' (fun z => z < h'.next) t a) (hp : NoParent h' a) :
    Sim ⟨h', fun y => if y = x then some a else s.env y⟩ (st.set x t) := by
  refine ⟨w, ?_, ?_, ?_, ?_⟩
  · intro y; simp only [Store.set]; split
    · simp
    · exact hs.dom y
  · intro y b u hy hu
    simp only [Store.set] at hu
    split at hu
    · rename_i e; simp only [e, if_true, Option.some.injEq] at hy; simp only [Option.some.injEq] at hu; subst hy hu; exact hr
    · rename_i e; simp only [e, if_false] at hy
      exact Rep.carry (hs.rep y b u hy hu) hext.1 (fun z hz _ => hext.2 z hz)
  · intro y b hy
    simp only at hy
    split at hy
    · simp only [Option.some.injEq] at hy; subst hy; exact ⟨have := Rep.mem hr; this, hp⟩
    · obtain ⟨h1, h2⟩ := hs.root y b hy
      refine ⟨Nat.lt_of_lt_of_le h1 hext.1, ?_⟩
      intro z hz hm
      obtain ⟨b', hb', hlt, _⟩ := w.up z hz _ hm
      simp only [Option.some.injEq] at hb'; subst hb'
      have hzn : z < s.heap.next := Nat.lt_trans hlt h1
      rw [hext.2 z hzn] at hm
      exact h2 z hzn hm
  · intro y z b hy hz
    simp only at hy hz
    split at hy <;> split at hz
    · simp_all
    · simp only [Option.some.injEq] at hy; subst hy; have := (hs.root z a hz).1; omega
    · simp only [Option.some.injEq] at hz; subst hz; have := (hs.root y a hy).1; omega
    · exact hs.inj y z b hy hz

theorem ext_alloc (h : Heap) (n : Node Ptr) : Ext h { (h.put h.next n) with next := h.next + 1 } :=
  ⟨by simp, fun a ha => by simp [Nat.ne_of_lt ha]⟩

theorem Sim.make {s : DState} {st : Store} (hs : Sim s st) (x : Nat) {n : Node Ptr} {u : Tree} (hn : NodeOk n) (hc : n.children = [])
    (hu : ∀ (h' : Heap) c, h'.node c = n → c < h'.next → Rep h' (fun x => x < h'.next) u c) :
    Agrees (Cmd.bindVar x (Datagram.make n) s) (st.set x u, none) := by
  refine ⟨_, rfl, ?_⟩
  exact hs.bind x (hs.wf.alloc hn hc) (ext_alloc _ _) (Nat.le_refl _) (hu _ _ (by simp) (by simp)) (hs.wf.alloc_noParent hc)

theorem rep_ofVal (v : Val) : ∀ (h' : Heap) c, h'.node c = Node.ofVal v → c < h'.next → Rep h' (fun x => x < h'.next) (.value v) c :=
  fun _ _ h1 h2 => ⟨h2, h1⟩

theorem rep_ofType (ty : Ty) : ∀ (h' : Heap) c, h'.node c = Node.ofType ty → c < h'.next → Rep h' (fun x => x < h'.next) (Tree.ofType ty) c := by
  intro h' c h1 h2
  cases ty
  · exact ⟨h2, h1⟩
  · exact ⟨h2, [], h1, rfl⟩
  · exact ⟨h2, [], h1, by simp, rfl⟩
  · exact ⟨h2, h1⟩

theorem nodeOk_ofType (ty : Ty) : NodeOk (Node.ofType ty) := by
  cases ty
  · exact Or.inl rfl
  · exact Or.inr (Or.inr (Or.inl ⟨_, rfl⟩))
  · exact Or.inr (Or.inr (Or.inr ⟨_, rfl, by simp⟩))
  · exact Or.inr (Or.inl ⟨_, rfl⟩)

theorem nodeOk_ofVal (v : Val) : NodeOk (Node.ofVal v) := Or.inr (Or.inl ⟨v, rfl⟩)

theorem children_ofType (ty : Ty) : (Node.ofType ty : Node Ptr).children = [] := by cases ty <;> rfl

/-- `Datagram x(y)`: a new root with the document of `y`. -/
theorem copyCtor_spec {h : Heap} (w : WF h) {y : Nat} {u : Tree} (hy : Rep h (fun z => z < h.next) u y) :
    ∃ h', Datagram.copyCtor y h = .ok h.next h' ∧ WF h' ∧ Ext h h' ∧ Rep h' (fun z => z < h'.next) u h.next ∧ NoParent h' h.next := by
  have wal := w.alloc (n := Node.empty) (Or.inl rfl) rfl
  have hnp := w.alloc_noParent (n := Node.empty) rfl
  have hex := ext_alloc h Node.empty
  have hy1 : Rep { (h.put h.next Node.empty) with next := h.next + 1 } (fun z => z < h.next + 1) u y :=
    Rep.carry hy hex.1 (fun z hz _ => hex.2 z hz)
  have hx1 : Rep { (h.put h.next Node.empty) with next := h.next + 1 } (fun z => z < h.next + 1) .empty h.next :=
    ⟨Nat.lt_succ_self _, by simp [Node.empty]⟩
  obtain ⟨h', hr, g⟩ := assign_does wal hx1 hy1
  simp only [Tree.eSet] at hr g
  refine ⟨h', ?_, g.wf, ?_, g.rep, g.roots (Nat.lt_succ_self _) hnp⟩
  · simp only [Datagram.assign, M.bind_run] at hr
    simp only [Datagram.copyCtor, M.bind_run, alloc_run]
    split at hr <;> simp_all
  · refine ⟨Nat.le_trans hex.1 g.mono, fun z hz => ?_⟩
    rw [g.frame z (Nat.lt_succ_of_lt hz) ?_, hex.2 z hz]
    intro hr2
    have := Reach.bounds wal (Nat.lt_succ_self _) hr2
    omega

theorem Sim.step {s : DState} {st : Store} (hs : Sim s st) (c : Stmt) : Agrees (c.run s) (st.step c) := by
  have edit : ∀ x (p : List Sel) (m : Nat → M Heap Unit) (F : Tree.Edit),
      (∀ h1 b u, WF h1 → Rep h1 (fun x => x < h1.next) u b → Does (m b) h1 b (F u)) →
      Agrees (Cmd.withVar x (fun a => Cmd.onHeap (follow p a >>= m)) s) (st.edit x (Tree.editAt p F)) := by
    intro x p m F hm
    cases hx : s.env x with
    | none => exact ⟨s, by simp [Cmd.withVar, hx, Store.edit, (hs.dom x).mp hx], by simpa [Store.edit, (hs.dom x).mp hx] using hs⟩
    | some a =>
      obtain ⟨t, ht, hr⟩ := hs.get hx
      have := hs.does hx ht (F := Tree.editAt p F) (follow_does hs.wf hr p m F (fun h1 b u w r _ _ => hm h1 b u w r))
      simpa only [Cmd.withVar, hx] using this
  cases c with
  | decl x ty => exact hs.make x (nodeOk_ofType ty) (children_ofType ty) (rep_ofType ty)
  | declVal x v => exact hs.make x (nodeOk_ofVal v) rfl (rep_ofVal v)
  | declCopy x y =>
    simp only [Stmt.run, Store.step]
    cases hy : s.env y with
    | none => exact ⟨s, by simp [Cmd.withVar, hy, (hs.dom y).mp hy], by simpa [(hs.dom y).mp hy] using hs⟩
    | some a =>
      obtain ⟨t, ht, hr⟩ := hs.get hy
      obtain ⟨h', hrun, w', hext, hr', hp⟩ := copyCtor_spec hs.wf hr
      refine ⟨⟨h', fun z => if z = x then some s.heap.next else s.env z⟩, ?_, ?_⟩
      · simp only [Cmd.withVar, hy, ht, Cmd.bindVar, hrun]
      · simp only [ht]; exact hs.bind x w' hext (Nat.le_refl _) hr' hp
  | touch x p =>
    exact edit x p (fun _ => pure ()) Tree.eTouch (fun h1 b u w r => ⟨h1, rfl, Good.refl w r⟩)
  | setVal x p v => exact edit x p _ _ (fun h1 b u w r => assignVal_does w r v)
  | addVal x p v => exact edit x p _ _ (fun h1 b u w r => addNew_does w r (nodeOk_ofVal v) rfl (rep_ofVal v))
  | addNew x p ty => exact edit x p _ _ (fun h1 b u w r => addNew_does w r (nodeOk_ofType ty) (children_ofType ty) (rep_ofType ty))
  | removeKey x p k => exact edit x p _ _ (fun h1 b u w r => removeKey_does w r k)
  | removeIdx x p i => exact edit x p _ _ (fun h1 b u w r => removeIdx_does w r i)
  | clear x p => exact edit x p _ _ (fun h1 b u w r => clear_does w r)
  | assignInto x p y =>
    cases hx : s.env x with
    | none => exact ⟨s, by simp [Stmt.run, Store.step, Cmd.withVar, hx, (hs.dom x).mp hx], by simpa [Store.step, (hs.dom x).mp hx] using hs⟩
    | some a =>
      obtain ⟨t, ht, hr⟩ := hs.get hx
      cases hy : s.env y with
      | none => exact ⟨s, by simp [Stmt.run, Store.step, Cmd.withVar, hx, hy, ht, (hs.dom y).mp hy], by simpa [Store.step, ht, (hs.dom y).mp hy] using hs⟩
      | some c =>
        obtain ⟨u, hu, hru⟩ := hs.get hy
        obtain ⟨han, hap⟩ := hs.root x a hx
        obtain ⟨hcn, hcp⟩ := hs.root y c hy
        have hrun : Stmt.run (.assignInto x p y) s = Cmd.onHeap (follow p a >>= fun b => Datagram.assign b c) s := by
          simp only [Stmt.run, Cmd.withVar, hx, hy]
        rw [hrun]
        by_cases hxy : x = y
        · subst hxy
          rw [hx] at hy; simp only [Option.some.injEq] at hy; subst hy
          simp only [Store.step, ht, if_true]
          rcases follow_spec p hs.wf hr with ⟨b, h1, v, K, hf, _, hrv, g, hed, hl⟩ | ⟨e, h1, t1, hf, g, hed⟩
          · have h2 := hed Tree.eTouch
            simp only [Tree.eTouch] at h2
            obtain ⟨h3, hr3, g3⟩ := assign_does g.wf hrv g.rep
            simp only [Tree.eSet] at hr3
            simp only [Tree.eTouch, h2, Store.edit, ht]
            have h4 := hed (Tree.eSet (K v))
            simp only [Tree.eSet] at h4 g3
            refine ⟨⟨h3, s.env⟩, ?_, ?_⟩
            · simp only [Cmd.onHeap, M.bind_run, hf, hr3, Tree.eSet, h4]
            · simp only [Tree.eSet, h4]; exact hs.edit hx ht (hl _ _ g3)
          · have h2 := hed Tree.eTouch
            refine ⟨⟨h1, s.env⟩, ?_, ?_⟩
            · simp only [Cmd.onHeap, M.bind_run, hf, h2]
            · simp only [h2]; exact hs.edit hx ht g
        · simp only [Store.step, ht, hu, if_neg hxy]
          refine hs.does hx ht (F := Tree.editAt p (Tree.eSet u)) (follow_does hs.wf hr p _ (Tree.eSet u) ?_)
          intro h1 b v w1 rv hm hfr
          refine assign_does w1 rv (Rep.carry hru hm ?_)
          intro z hz hrz
          refine hfr z hz (hs.wf.roots hcn han hcp hap ?_ hrz)
          intro e; subst e; exact hxy (hs.inj x y c hx hy)
  | assignFrom x y q =>
    cases hx : s.env x with
    | none => exact ⟨s, by simp [Stmt.run, Store.step, Cmd.withVar, hx, (hs.dom x).mp hx], by simpa [Store.step, (hs.dom x).mp hx] using hs⟩
    | some a =>
      obtain ⟨t, ht, hr⟩ := hs.get hx
      cases hy : s.env y with
      | none => exact ⟨s, by simp [Stmt.run, Store.step, Cmd.withVar, hx, hy, ht, (hs.dom y).mp hy], by simpa [Store.step, ht, (hs.dom y).mp hy] using hs⟩
      | some c =>
        obtain ⟨u, hu, hru⟩ := hs.get hy
        have hrun : Stmt.run (.assignFrom x y q) s = Cmd.onHeap (follow q c >>= fun b => Datagram.assign a b) s := by
          simp only [Stmt.run, Cmd.withVar, hx, hy]
        rw [hrun]
        simp only [Store.step, ht, hu]
        rcases follow_spec q hs.wf hru with ⟨b, h1, v, K, hf, hv, hrv, g, hed, hl⟩ | ⟨e, h1, t1, hf, g, hed⟩
        · have h2 := hed Tree.eTouch
          simp only [Tree.eTouch] at h2
          simp only [Tree.eTouch, h2]
          have hs1 := hs.edit hy hu g
          obtain ⟨t1, ht1, hr1⟩ := hs1.get (x := x) (a := a) hx
          obtain ⟨h3, hr3, g3⟩ := assign_does g.wf hr1 hrv
          simp only [Tree.eSet] at hr3 g3
          refine ⟨⟨h3, s.env⟩, ?_, ?_⟩
          · simp only [Cmd.onHeap, M.bind_run, hf, hr3]
          · rw [hv] at g3; exact hs1.edit hx ht1 (hv ▸ g3)
        · have h2 := hed Tree.eTouch
          refine ⟨⟨h1, s.env⟩, ?_, ?_⟩
          · simp only [Cmd.onHeap, M.bind_run, hf, h2]
          · simp only [h2]; exact hs.edit hy hu g

theorem Sim.init : Sim Cmd.init (fun _ => none) :=
  ⟨WF.init, by simp [Cmd.init], by simp [Cmd.init], by simp [Cmd.init], by simp [Cmd.init]⟩

end LP
