import Verif.Lemma.Handle
import Verif.Lemma.Cycle
/-! What clients observe is determined by the documents. -/
namespace LP
open Heap

theorem observe_rep (pd : Dbl → Str) (po : Nat → Nat → Str) (q : Query) {s : DState} {y b : Nat} {t : Tree} (hy : s.env y = some b)
    (ht : Rep s.heap (fun x => x < s.heap.next) t b) : observe pd po q s y = some (t.answer pd po q) := by
  have hd := Rep.depth_next ht
  simp only [observe, hy, query_rep pd po ht (by omega) q]
  cases t.answer pd po q <;> rfl

theorem observeEq_rep {s : DState} {y z a b : Nat} {t u : Tree} (hy : s.env y = some a) (hz : s.env z = some b)
    (ht : Rep s.heap (fun x => x < s.heap.next) t a) (hu : Rep s.heap (fun x => x < s.heap.next) u b) :
    ∃ r, observeEq s y z = some r ∧ (r = true ↔ Same t u) := by
  have hd := Rep.depth_next ht
  obtain ⟨r, hr, hri⟩ := eq_rep (s.heap.next + 1) u t _ _ b a (Or.inr (by omega)) hu ht
  refine ⟨r, ?_, hri.trans ⟨Same.symm, Same.symm⟩⟩
  simp only [observeEq, hy, hz, Datagram.eq, hr]

/-- Confined programs keep the documents of the other side. -/
theorem confined_docs {L : Nat → Prop} {prog : List Cmd} {s s' : DState} (inv : Inv s) (hs : Separated L s) (hc : ∀ c ∈ prog, Confined L c)
    (hr : Cmd.runAll prog s = some s') : Inv s' ∧ Separated L s' ∧ ∀ y, ¬ L y → s'.env y = s.env y ∧
      ∀ b t, s.env y = some b → Rep s.heap (fun x => x < s.heap.next) t b → Rep s'.heap (fun x => x < s'.heap.next) t b := by
  obtain ⟨s2, hr2, inv2, hs2, henv, hnode, hm⟩ := separated_run prog inv hs hc (runAll_sound prog hr)
  rw [hr2] at hr; simp only [Option.some.injEq] at hr; subst hr
  refine ⟨inv2, hs2, fun y hy => ⟨henv y hy, fun b t hb ht => ?_⟩⟩
  exact Rep.carry ht hm (fun x _ hx => hnode y b x hy hb hx)

theorem Reachable.inv {s : DState} (h : Reachable s) : Inv s := by
  obtain ⟨prog, hr⟩ := h
  obtain ⟨s', hr', inv⟩ := runAll_inv prog Inv.init (runAll_sound prog hr)
  rw [hr'] at hr; simp only [Option.some.injEq] at hr; subst hr; exact inv

/-- A concrete program and what it computes give a reachable state (used in examples). -/
theorem reach_eval {α : Type} (prog : List Cmd) (f : DState → α) (v : α) (h : (Cmd.runAll prog Cmd.init).map f = some v) :
    ∃ s, Reachable s ∧ f s = v := by
  cases hr : Cmd.runAll prog Cmd.init with
  | none => rw [hr] at h; cases h
  | some s =>
    rw [hr] at h
    simp only [Option.map_some, Option.some.injEq] at h
    exact ⟨s, ⟨prog, hr⟩, h⟩

theorem Inv.holds {s : DState} (inv : Inv s) {x : Nat} (hx : s.env x ≠ none) : ∃ t, Holds s x t := by
  obtain ⟨a, ha⟩ := Option.ne_none_iff_exists'.mp hx
  obtain ⟨t, ht⟩ := rep_exists inv.wf (inv.valid x a ha)
  exact ⟨t, a, ha, ht⟩

theorem Holds.scope {s : DState} {x : Nat} {t : Tree} (h : Holds s x t) : s.env x ≠ none := by
  obtain ⟨a, ha, _⟩ := h; rw [ha]; exact Option.some_ne_none a

theorem Holds.observe {s : DState} {x : Nat} {t : Tree} (h : Holds s x t) (pd : Dbl → Str) (po : Nat → Nat → Str) (q : Query) :
    observe pd po q s x = some (t.answer pd po q) := by
  obtain ⟨a, ha, ht⟩ := h; exact observe_rep pd po q ha ht

theorem Holds.observeEq {s : DState} {x y : Nat} {t u : Tree} (h : Holds s x t) (h' : Holds s y u) :
    ∃ r, observeEq s x y = some r ∧ (r = true ↔ Same t u) := by
  obtain ⟨a, ha, ht⟩ := h; obtain ⟨b, hb, hu⟩ := h'; exact observeEq_rep ha hb ht hu

/-- A statement that edits one document, in any state of any program. -/
theorem stmt_edit {s : DState} (inv : Inv s) {x : Nat} {t : Tree} (ht : Holds s x t) {c : Stmt} {p : List Sel} {F : Tree.Edit}
    (hc : c.edit? = some (x, p, F)) :
    ∃ s', Ends (c.run s) (Tree.editAt p F t).2 s' ∧ Inv s' ∧ Holds s' x (Tree.editAt p F t).1 ∧ s'.env = s.env := by
  obtain ⟨a, ha, hr⟩ := ht
  have main : ∀ (m : Nat → M Heap Unit), (∀ h1 b u, WF h1 → Rep h1 (fun x => x < h1.next) u b → Does (m b) h1 b (F u)) →
      ∃ s', Ends (Cmd.withVar x (fun a => Cmd.onHeap (follow p a >>= m)) s) (Tree.editAt p F t).2 s' ∧ Inv s' ∧
        Holds s' x (Tree.editAt p F t).1 ∧ s'.env = s.env := by
    intro m hm
    obtain ⟨h', hrun, g⟩ := follow_does inv.wf hr p m F (fun h1 b u w r _ _ => hm h1 b u w r)
    refine ⟨⟨h', s.env⟩, ?_, ⟨g.wf, fun y b hy => Nat.lt_of_lt_of_le (inv.valid y b hy) g.mono⟩, ⟨a, ha, g.rep⟩, rfl⟩
    simp only [Ends, Cmd.withVar, ha, Cmd.onHeap, hrun]
    cases (Tree.editAt p F t).2 <;> rfl
  cases c <;> simp only [Stmt.edit?, Option.some.injEq, Prod.mk.injEq, reduceCtorEq] at hc
  case touch =>
    obtain ⟨rfl, rfl, rfl⟩ := hc
    exact main (fun _ => pure ()) (fun h1 b u w r => ⟨h1, rfl, Good.refl w r⟩)
  case setVal => obtain ⟨rfl, rfl, rfl⟩ := hc; exact main _ (fun h1 b u w r => assignVal_does w r _)
  case addVal => obtain ⟨rfl, rfl, rfl⟩ := hc; exact main _ (fun h1 b u w r => addNew_does w r (nodeOk_ofVal _) rfl (rep_ofVal _))
  case addNew => obtain ⟨rfl, rfl, rfl⟩ := hc; exact main _ (fun h1 b u w r => addNew_does w r (nodeOk_ofType _) (children_ofType _) (rep_ofType _))
  case removeKey => obtain ⟨rfl, rfl, rfl⟩ := hc; exact main _ (fun h1 b u w r => removeKey_does w r _)
  case removeIdx => obtain ⟨rfl, rfl, rfl⟩ := hc; exact main _ (fun h1 b u w r => removeIdx_does w r _)
  case clear => obtain ⟨rfl, rfl, rfl⟩ := hc; exact main _ (fun h1 b u w r => clear_does w r)

/-- Reading through a chain of `operator[]`. -/
theorem Holds.observeAt {s : DState} (inv : Inv s) {x : Nat} {t : Tree} (ht : Holds s x t) (pd : Dbl → Str) (po : Nat → Nat → Str)
    (q : Query) (p : List Sel) :
    observeAt pd po q p s x = match (Tree.editAt p Tree.eTouch t).2 with
      | none => some ((Tree.subAt p t).answer pd po q)
      | some e => some (.error e) := by
  obtain ⟨a, ha, hr⟩ := ht
  rcases follow_spec p inv.wf hr with ⟨b, h1, u, K, hf, hu, hru, g, hed, hl⟩ | ⟨e, h1, t1, hf, g, hed⟩
  · have hd := Rep.depth_next hru
    have hq := query_rep pd po hru (by omega) q
    have h2 : (Tree.editAt p Tree.eTouch t).2 = none := by rw [hed]; rfl
    simp only [LP.observeAt, ha, M.bind_run, hf, hq, h2, hu]
    cases (Tree.subAt p t).answer pd po q <;> rfl
  · have h2 : (Tree.editAt p Tree.eTouch t).2 = some e := by rw [hed]
    simp only [LP.observeAt, ha, M.bind_run, hf, h2]

/-- The tree a variable holds has sorted dictionaries at the top. -/
theorem Holds.sorted {s : DState} {x : Nat} {t : Tree} (h : Holds s x t) : Dict.Sorted (V := Tree) t.asDict := by
  obtain ⟨a, _, hr⟩ := h
  obtain ⟨d, _, _, hs, hrd⟩ := Rep.asDict hr
  exact Rep.dict_sorted hs hrd

end LP
