import Verif.Lemma.Build
import Verif.Spec.Client
/-! The heap invariant of programs that use only the Datagram API: a forest with upward edges. -/
namespace LP
open Heap

/-- The object holds content in its active representation only. -/
def NodeOk (n : Node Ptr) : Prop :=
  n = ⟨.empty, [], [], none⟩ ∨ (∃ v, n = ⟨.value, [], [], some v⟩) ∨ (∃ ps, n = ⟨.list, [], ps, none⟩) ∨
    (∃ d, n = ⟨.dict, d, [], none⟩ ∧ Dict.Sorted d)

/-- The object graph is a forest whose edges lead to later objects. -/
structure WF (h : Heap) : Prop where
  ok : ∀ a, a < h.next → NodeOk (h.node a)
  up : ∀ a, a < h.next → ∀ p ∈ (h.node a).children, ∃ b, p = some b ∧ a < b ∧ b < h.next
  nodup : ∀ a, a < h.next → (h.node a).children.Nodup
  disj : ∀ a a', a < h.next → a' < h.next → a ≠ a' → ∀ p ∈ (h.node a).children, p ∉ (h.node a').children

/-- Nothing points to `b`. -/
def NoParent (h : Heap) (b : Nat) : Prop := ∀ a, a < h.next → some b ∉ (h.node a).children

theorem WF.init : WF Heap.init := ⟨by simp [Heap.init], by simp [Heap.init], by simp [Heap.init], by simp [Heap.init]⟩

theorem WF.put {h : Heap} (w : WF h) {a : Nat} (ha : a < h.next) {n : Node Ptr} (hn : NodeOk n)
    (hnd : n.children.Nodup)
    (hc : ∀ p ∈ n.children, p ∈ (h.node a).children ∨ ∃ b, p = some b ∧ a < b ∧ b < h.next ∧ NoParent h b) :
    WF (h.put a n) := by
  constructor
  · intro b hb
    simp only [put_node]; split
    · exact hn
    · exact w.ok b hb
  · intro b hb p hp
    simp only [put_node, put_next] at *
    split at hp
    · rename_i e; subst e
      rcases hc p hp with h1 | ⟨c, rfl, h1, h2, _⟩
      · exact w.up b ha p h1
      · exact ⟨c, rfl, h1, h2⟩
    · exact w.up b hb p hp
  · intro b hb
    simp only [put_node, put_next] at *
    split
    · exact hnd
    · exact w.nodup b hb
  · intro b b' hb hb' hne p hp hp'
    simp only [put_node, put_next] at *
    by_cases e : b = a
    · subst e
      simp only [if_true] at hp
      rw [if_neg (Ne.symm hne)] at hp'
      rcases hc p hp with h1 | ⟨c, rfl, _, _, h1⟩
      · exact w.disj b b' hb hb' hne p h1 hp'
      · exact h1 b' hb' hp'
    · rw [if_neg e] at hp
      by_cases e' : b' = a
      · subst e'
        simp only [if_true] at hp'
        rcases hc p hp' with h1 | ⟨c, rfl, _, _, h1⟩
        · exact w.disj b' b hb' hb (Ne.symm hne) p h1 hp
        · exact h1 b hb hp
      · rw [if_neg e'] at hp'
        exact w.disj b b' hb hb' hne p hp hp'

/-- Allocating an object without children. -/
theorem WF.alloc {h : Heap} (w : WF h) {n : Node Ptr} (hn : NodeOk n) (hc : n.children = []) :
    WF { (h.put h.next n) with next := h.next + 1 } := by
  constructor
  · intro b hb
    simp only [put_node] at *; split
    · exact hn
    · exact w.ok b (by omega)
  · intro b hb p hp
    simp only [put_node] at *
    split at hp
    · rw [hc] at hp; simp at hp
    · obtain ⟨c, h1, h2, h3⟩ := w.up b (by omega) p hp
      exact ⟨c, h1, h2, by omega⟩
  · intro b hb
    simp only [put_node] at *
    split
    · rw [hc]; simp
    · exact w.nodup b (by omega)
  · intro b b' hb hb' hne p hp hp'
    simp only [put_node] at *
    split at hp
    · rw [hc] at hp; simp at hp
    · split at hp'
      · rw [hc] at hp'; simp at hp'
      · exact w.disj b b' (by omega) (by omega) hne p hp hp'

/-- The new object has no parent. -/
theorem WF.alloc_noParent {h : Heap} (w : WF h) {n : Node Ptr} (hc : n.children = []) :
    NoParent { (h.put h.next n) with next := h.next + 1 } h.next := by
  intro a ha hp
  simp only [put_node] at *
  split at hp
  · rw [hc] at hp; simp at hp
  · obtain ⟨b, h1, _, h3⟩ := w.up a (by omega) _ hp
    simp only [Option.some.injEq] at h1
    omega

theorem NoParent.put {h : Heap} {b a : Nat} {n : Node Ptr} (hp : NoParent h b) (hn : some b ∉ n.children) :
    NoParent (h.put a n) b := by
  intro c hc
  simp only [put_node, put_next] at *
  split
  · exact hn
  · exact hp c hc

/-- In a well-formed heap every address denotes a finite tree. -/
theorem WF.rep {h : Heap} (w : WF h) : ∀ (m a : Nat), a < h.next → h.next - a ≤ m →
    ∃ t, Rep h (fun x => a ≤ x ∧ x < h.next) t a ∧ t.depth ≤ h.next - a := by
  intro m
  induction m with
  | zero => intro a ha hm; omega
  | succ m ih =>
    intro a ha hm
    have hlist : ∀ (ps : List Ptr), (∀ p ∈ ps, ∃ b, p = some b ∧ a < b ∧ b < h.next) →
        ∃ ts, RepL h (fun x => a ≤ x ∧ x < h.next) ts ps ∧ (∀ t ∈ ts, Tree.depth t + 1 ≤ h.next - a) := by
      intro ps
      induction ps with
      | nil => intro _; exact ⟨[], rfl, by simp⟩
      | cons p ps ihp =>
        intro hp
        obtain ⟨b, rfl, hab, hb⟩ := hp p (by simp)
        obtain ⟨ts, hts, hd⟩ := ihp (fun q hq => hp q (by simp [hq]))
        obtain ⟨t, ht, htd⟩ := ih b hb (by omega)
        refine ⟨t :: ts, ⟨b, ps, rfl, ?_, hts⟩, ?_⟩
        · exact Rep.mono (fun x ⟨h1, h2⟩ => ⟨by omega, h2⟩) (fun _ _ => rfl) _ _ ht
        · intro u hu
          simp only [List.mem_cons] at hu
          rcases hu with rfl | hu
          · omega
          · exact hd u hu
    have hdepth : ∀ ts : List Tree, (∀ t ∈ ts, Tree.depth t + 1 ≤ h.next - a) → 1 + Tree.depth.depthL ts ≤ h.next - a := by
      intro ts
      induction ts with
      | nil => intro _; simp only [Tree.depth.depthL]; omega
      | cons t ts iht =>
        intro hh
        have h1 := hh t (by simp)
        have h2 := iht (fun u hu => hh u (by simp [hu]))
        simp only [Tree.depth.depthL]; omega
    have hdepthD : ∀ ds : List (Str × Tree), 1 + Tree.depth.depthL (ds.map Prod.snd) = 1 + Tree.depth.depthD ds := by
      intro ds
      induction ds with
      | nil => rfl
      | cons e ds ihd => obtain ⟨k, t⟩ := e; simp only [List.map_cons, Tree.depth.depthL, Tree.depth.depthD]; omega
    rcases w.ok a ha with hn | ⟨v, hn⟩ | ⟨ps, hn⟩ | ⟨d, hn, hs⟩
    · exact ⟨.empty, ⟨⟨Nat.le_refl _, ha⟩, hn⟩, by simp only [Tree.depth]; omega⟩
    · exact ⟨.value v, ⟨⟨Nat.le_refl _, ha⟩, hn⟩, by simp only [Tree.depth]; omega⟩
    · obtain ⟨ts, h1, h2⟩ := hlist ps (by
        have := w.up a ha; rw [hn] at this; simpa [Node.children] using this)
      refine ⟨.list ts, ⟨⟨Nat.le_refl _, ha⟩, ps, hn, h1⟩, ?_⟩
      simp only [Tree.depth]; exact hdepth ts h2
    · obtain ⟨ts, h1, h2⟩ := hlist (d.map Prod.snd) (by
        have := w.up a ha; rw [hn] at this; simpa [Node.children] using this)
      have hlen : d.length = ts.length := by have := (RepL_iff.mp h1).1; simpa using this
      have hsnd : ((d.map Prod.fst).zip ts).map Prod.snd = ts := by
        rw [List.map_snd_zip]; simp [hlen]
      have hfst : ((d.map Prod.fst).zip ts).map Prod.fst = d.map Prod.fst := by
        rw [List.map_fst_zip]; simp [hlen]
      refine ⟨.dict ((d.map Prod.fst).zip ts), ⟨⟨Nat.le_refl _, ha⟩, d, hn, hs, ?_⟩, ?_⟩
      · rw [RepD_iff, hsnd, hfst]; exact ⟨rfl, h1⟩
      · simp only [Tree.depth]
        rw [← hdepthD, hsnd]; exact hdepth ts h2

/-- The tree denoted by an address of a well-formed heap. -/
theorem WF.tree {h : Heap} (w : WF h) {a : Nat} (ha : a < h.next) :
    ∃ t, Rep h (fun x => a ≤ x ∧ x < h.next) t a ∧ t.depth ≤ h.next :=
  let ⟨t, h1, h2⟩ := w.rep (h.next - a) a ha (Nat.le_refl _)
  ⟨t, h1, by omega⟩

theorem children_insert {k : Str} {p : Ptr} {d : Dict Ptr} (hnd : (d.map Prod.snd).Nodup) (hp : p ∉ d.map Prod.snd) :
    ((Dict.insert k p d).map Prod.snd).Nodup ∧ ∀ q ∈ (Dict.insert k p d).map Prod.snd, q = p ∨ q ∈ d.map Prod.snd := by
  have h2 : ∀ (d : Dict Ptr), ∀ q ∈ (Dict.insert k p d).map Prod.snd, q = p ∨ q ∈ d.map Prod.snd := by
    intro d q hq
    rw [List.mem_map] at hq
    obtain ⟨e, he, rfl⟩ := hq
    rcases Dict.mem_insert he with rfl | he
    · exact Or.inl rfl
    · exact Or.inr (List.mem_map_of_mem he)
  refine ⟨?_, h2 d⟩
  induction d with
  | nil => simp [Dict.insert]
  | cons e d ih =>
    obtain ⟨q, w⟩ := e
    simp only [List.map_cons, List.nodup_cons, List.mem_cons, not_or] at hnd hp
    simp only [Dict.insert]
    split
    · simp only [List.map_cons, List.nodup_cons]; exact ⟨hp.2, hnd.2⟩
    · split
      · simp only [List.map_cons, List.nodup_cons, List.mem_cons, not_or]; exact ⟨hp, hnd⟩
      · simp only [List.map_cons, List.nodup_cons]
        refine ⟨?_, ih hnd.2 hp.2⟩
        intro hq
        rcases h2 d _ hq with h | h
        · exact hp.1 h.symm
        · exact hnd.1 h

theorem children_dict (d : Dict Ptr) (l : List Ptr) (t : Ty) (v : Option Val) :
    (⟨t, d, l, v⟩ : Node Ptr).children = d.map Prod.snd ++ l := rfl

/-- The conversion to a dictionary yields a clean object with a subset of the children. -/
theorem toDict_ok {n : Node Ptr} (hn : NodeOk n) : ∃ d, n.toDict = ⟨.dict, d, [], none⟩ ∧ Dict.Sorted d ∧
    (n.ty = .dict ∧ n.dict = d ∨ n.ty ≠ .dict ∧ d = []) := by
  rcases hn with rfl | ⟨v, rfl⟩ | ⟨ps, rfl⟩ | ⟨d, rfl, hs⟩
  · exact ⟨[], by simp [Node.toDict], Dict.sorted_nil, by simp⟩
  · exact ⟨[], by simp [Node.toDict], Dict.sorted_nil, by simp⟩
  · exact ⟨[], by simp [Node.toDict], Dict.sorted_nil, by simp⟩
  · exact ⟨d, by simp [Node.toDict], hs, by simp⟩

theorem toList_ok {n : Node Ptr} (hn : NodeOk n) : ∃ l, n.toList = ⟨.list, [], l, none⟩ ∧
    (n.ty = .list ∧ n.list = l ∨ n.ty ≠ .list ∧ l = []) := by
  rcases hn with rfl | ⟨v, rfl⟩ | ⟨ps, rfl⟩ | ⟨d, rfl, hs⟩
  · exact ⟨[], by simp [Node.toList], by simp⟩
  · exact ⟨[], by simp [Node.toList], by simp⟩
  · exact ⟨ps, by simp [Node.toList], by simp⟩
  · exact ⟨[], by simp [Node.toList], by simp⟩

/-- Storing an unparented later object under a key. -/
theorem WF.setKey {h : Heap} (w : WF h) {a b : Nat} (ha : a < h.next) (hab : a < b) (hb : b < h.next)
    (hp : NoParent h b) (k : Str) : ∃ d, (h.node a).toDict = ⟨.dict, d, [], none⟩ ∧ Dict.Sorted d ∧
      WF (h.put a ⟨.dict, Dict.insert k (some b) d, [], none⟩) := by
  obtain ⟨d, hd, hs, hcase⟩ := toDict_ok (w.ok a ha)
  have hsub : ∀ q ∈ d.map Prod.snd, q ∈ (h.node a).children := by
    rcases hcase with ⟨_, h2⟩ | ⟨_, h2⟩
    · rw [← h2]; intro q hq; simp only [Node.children, List.mem_append]; exact Or.inl hq
    · subst h2; simp
  have hnd : (d.map Prod.snd).Nodup := by
    rcases hcase with ⟨_, h2⟩ | ⟨_, h2⟩
    · rw [← h2]; have := w.nodup a ha
      simp only [Node.children] at this
      exact (List.nodup_append.mp this).1
    · subst h2; simp
  have hins := children_insert (k := k) (p := some b) hnd (fun hm => hp a ha (hsub _ hm))
  refine ⟨d, hd, hs, ?_⟩
  refine w.put ha (Or.inr (Or.inr (Or.inr ⟨_, rfl, Dict.insert_sorted hs⟩))) (by simpa [Node.children] using hins.1) ?_
  intro p hpm
  simp only [Node.children, List.append_nil] at hpm
  rcases hins.2 p hpm with rfl | h1
  · exact Or.inr ⟨b, rfl, hab, hb, hp⟩
  · exact Or.inl (hsub p h1)

/-- Appending an unparented later object to a list. -/
theorem WF.add {h : Heap} (w : WF h) {a b : Nat} (ha : a < h.next) (hab : a < b) (hb : b < h.next)
    (hp : NoParent h b) : ∃ l, (h.node a).toList = ⟨.list, [], l, none⟩ ∧
      WF (h.put a ⟨.list, [], l ++ [some b], none⟩) := by
  obtain ⟨l, hd, hcase⟩ := toList_ok (w.ok a ha)
  have hsub : ∀ q ∈ l, q ∈ (h.node a).children := by
    rcases hcase with ⟨_, h2⟩ | ⟨_, h2⟩
    · rw [← h2]; intro q hq; simp only [Node.children, List.mem_append]; exact Or.inr hq
    · subst h2; simp
  have hnd : l.Nodup := by
    rcases hcase with ⟨_, h2⟩ | ⟨_, h2⟩
    · rw [← h2]; have := w.nodup a ha
      simp only [Node.children] at this
      exact (List.nodup_append.mp this).2.1
    · subst h2; simp
  refine ⟨l, hd, ?_⟩
  refine w.put ha (Or.inr (Or.inr (Or.inl ⟨_, rfl⟩))) ?_ ?_
  · simp only [Node.children, List.map_nil, List.nil_append]
    rw [List.nodup_append]
    refine ⟨hnd, by simp, ?_⟩
    intro x hx y hy
    simp only [List.mem_singleton] at hy
    subst hy
    intro e; subst e
    exact hp a ha (hsub _ hx)
  · intro p hpm
    simp only [Node.children, List.map_nil, List.nil_append, List.mem_append, List.mem_singleton] at hpm
    rcases hpm with h1 | rfl
    · exact Or.inl (hsub p h1)
    · exact Or.inr ⟨b, rfl, hab, hb, hp⟩

/-- What `Copy` guarantees about the shape of the heap. -/
def CopyShape (h : Heap) (c : Nat) (h' : Heap) : Prop :=
  WF h' ∧ Ext h h' ∧ c = h.next ∧ c < h'.next ∧ NoParent h' c

theorem copy_shape : ∀ (n : Nat) (a c : Nat) (h h' : Heap), WF h → a < h.next → copy n a h = .ok c h' → CopyShape h c h' := by
  intro n
  induction n with
  | zero => intro a c h h' w ha hc; simp [copy] at hc
  | succ n ih =>
    intro a c h h' w ha hc
    -- the loop over children, started in any extension of `h` in which the new object is an unparented root
    have loop : ∀ {α : Type} (ptr : α → Ptr) (store : α → Nat → M (Node Ptr) Unit),
        (∀ x d, ∀ g : Heap, WF g → h.next < g.next → h.next < d → d < g.next → NoParent g d → NoParent g h.next →
          ∃ m, store x d (g.node h.next) = .ok () m ∧ WF (g.put h.next m) ∧ some h.next ∉ m.children) →
        ∀ (xs : List α) (g g' : Heap), (∀ x ∈ xs, ∃ b, ptr x = some b ∧ b < h.next) →
          WF g → Ext h g → h.next < g.next → NoParent g h.next →
          M.each (fun x => do let d ← deref (ptr x) >>= copy n; on h.next (store x d)) xs g = .ok () g' →
          WF g' ∧ Ext h g' ∧ h.next < g'.next ∧ NoParent g' h.next := by
      intro α ptr store hstore xs
      induction xs with
      | nil => intro g g' _ wg hx hl hnp he; simp only [M.each_nil, Res.ok.injEq, true_and] at he; subst he; exact ⟨wg, hx, hl, hnp⟩
      | cons x xs ihx =>
        intro g g' hp wg hx hl hnp he
        obtain ⟨b, hb, hbl⟩ := hp x (by simp)
        simp only [M.each_cons, M.bind_run, hb, deref_some] at he
        cases hcp : copy n b g with
        | throw e s => simp [hcp] at he
        | ub => simp [hcp] at he
        | fuel => simp [hcp] at he
        | ok d g1 =>
          simp only [hcp] at he
          obtain ⟨w1, e1, hd1, hd2, hd3⟩ := ih b d g g1 wg (by omega) hcp
          have hnp1 : NoParent g1 h.next := by
            intro y hy hmem
            by_cases hyg : y < g.next
            · rw [e1.2 y hyg] at hmem; exact hnp y hyg hmem
            · obtain ⟨z, hz, hz1, hz2⟩ := w1.up y hy _ hmem
              simp only [Option.some.injEq] at hz; omega
          obtain ⟨m, hm, wm, hmc⟩ := hstore x d g1 w1 (by have := e1.1; omega) (by omega) hd2 hd3 hnp1
          simp only [on, hm] at he
          refine ihx (g1.put h.next m) g' (fun y hy => hp y (by simp [hy])) wm ?_ (by simp only [put_next]; have := e1.1; omega) (hnp1.put hmc) he
          refine ⟨by simp only [put_next]; have := e1.1; have := hx.1; omega, ?_⟩
          intro y hy
          simp only [put_node, Nat.ne_of_lt hy, if_false]
          rw [e1.2 y (by omega), hx.2 y hy]
    have storeKey : ∀ (x : Str × Ptr) (d : Nat), ∀ g : Heap, WF g → h.next < g.next → h.next < d → d < g.next → NoParent g d →
        NoParent g h.next → ∃ m, Node.setKey x.1 (some d) (g.node h.next) = .ok () m ∧ WF (g.put h.next m) ∧ some h.next ∉ m.children := by
      intro x d g wg hl hd1 hd2 hnp hnpc
      obtain ⟨dd, h1, h2, h3⟩ := wg.setKey hl hd1 hd2 hnp x.1
      refine ⟨_, by simp only [Node.setKey, M.modify_run, h1], h3, ?_⟩
      intro hm
      simp only [Node.children, List.append_nil, List.mem_map] at hm
      obtain ⟨e, he, hee⟩ := hm
      rcases Dict.mem_insert he with rfl | he
      · simp only [Option.some.injEq] at hee; omega
      · have hmem : e.2 ∈ (g.node h.next).children := by
          obtain ⟨d', hd', _, hcase⟩ := toDict_ok (wg.ok h.next hl)
          rw [h1] at hd'
          simp only [Node.mk.injEq, true_and, and_true] at hd'
          subst hd'
          rcases hcase with ⟨_, h2⟩ | ⟨_, h2⟩
          · simp only [Node.children, List.mem_append]; exact Or.inl (by rw [h2]; exact List.mem_map_of_mem he)
          · subst h2; simp at he
        rw [hee] at hmem
        exact hnpc h.next hl hmem
    have storeAdd : ∀ (_ : Ptr) (d : Nat), ∀ g : Heap, WF g → h.next < g.next → h.next < d → d < g.next → NoParent g d →
        NoParent g h.next → ∃ m, Node.add (some d) (g.node h.next) = .ok () m ∧ WF (g.put h.next m) ∧ some h.next ∉ m.children := by
      intro _ d g wg hl hd1 hd2 hnp hnpc
      obtain ⟨l, h1, h3⟩ := wg.add hl hd1 hd2 hnp
      refine ⟨_, by simp only [Node.add, M.modify_run, h1], h3, ?_⟩
      intro hm
      simp only [Node.children, List.map_nil, List.nil_append, List.mem_append, List.mem_singleton, Option.some.injEq] at hm
      rcases hm with hm | hm
      · have hmem : some h.next ∈ (g.node h.next).children := by
          obtain ⟨d', hd', hcase⟩ := toList_ok (wg.ok h.next hl)
          rw [h1] at hd'
          simp only [Node.mk.injEq, true_and, and_true] at hd'
          subst hd'
          rcases hcase with ⟨_, h2⟩ | ⟨_, h2⟩
          · simp only [Node.children, List.mem_append]; exact Or.inr (by rw [h2]; exact hm)
          · subst h2; simp at hm
        exact hnpc h.next hl hmem
      · omega
    -- the state after allocating the copy and setting its type
    have start : ∀ nd : Node Ptr, NodeOk nd → nd.children = [] →
        let g : Heap := { (h.put h.next nd) with next := h.next + 1 }
        WF g ∧ Ext h g ∧ h.next < g.next ∧ NoParent g h.next := by
      intro nd hnd hch
      refine ⟨w.alloc hnd hch, ⟨by simp, ?_⟩, by simp, w.alloc_noParent hch⟩
      intro b hb; simp [Nat.ne_of_lt hb]
    have hst : ∀ ty : Ty, ({ (({ (h.put h.next Node.empty) with next := h.next + 1 } : Heap).put h.next { (Node.empty : Node Ptr) with ty := ty }) with next := h.next + 1 } : Heap)
        = { (h.put h.next ⟨ty, [], [], none⟩) with next := h.next + 1 } := by
      intro ty
      simp only [put, Node.empty]
      congr 1; funext b; split <;> rfl
    simp only [copy, M.bind_run, alloc_run, M.get_run, M.modify_run] at hc
    have hna : (({ (h.put h.next Node.empty) with next := h.next + 1 } : Heap).node a) = h.node a := by
      simp [Nat.ne_of_lt ha]
    have hnc : (({ (h.put h.next Node.empty) with next := h.next + 1 } : Heap).node h.next) = Node.empty := by simp
    have hput : ∀ ty : Ty, (({ (h.put h.next Node.empty) with next := h.next + 1 } : Heap).put h.next { (Node.empty : Node Ptr) with ty := ty })
        = { (h.put h.next ⟨ty, [], [], none⟩) with next := h.next + 1 } := by
      intro ty
      simp only [put, Node.empty]
      congr 1; funext b; split <;> rfl
    rw [hna, hnc, hput] at hc
    rcases w.ok a ha with hn | ⟨v, hn⟩ | ⟨ps, hn⟩ | ⟨d, hn, hs⟩
    · simp only [hn, M.pure_run, Res.ok.injEq] at hc
      obtain ⟨rfl, rfl⟩ := hc
      obtain ⟨a1, a2, a3, a4⟩ := start ⟨.empty, [], [], none⟩ (Or.inl rfl) rfl
      exact ⟨a1, a2, rfl, a3, a4⟩
    · simp only [hn] at hc
      rw [M.bind_run] at hc
      simp only [on, Node.assignData, M.modify_run, put_node, if_true, M.pure_run, Res.ok.injEq, ne_eq, not_true_eq_false, if_false] at hc
      obtain ⟨rfl, rfl⟩ := hc
      obtain ⟨a1, a2, a3, a4⟩ := start ⟨.value, [], [], some v⟩ (Or.inr (Or.inl ⟨v, rfl⟩)) rfl
      have : (({ (h.put h.next ⟨.value, [], [], none⟩) with next := h.next + 1 } : Heap).put h.next ⟨.value, [], [], some v⟩)
          = { (h.put h.next ⟨.value, [], [], some v⟩) with next := h.next + 1 } := by
        simp only [put]
        congr 1; funext b; split <;> rfl
      rw [this]
      exact ⟨a1, a2, rfl, a3, a4⟩
    · obtain ⟨a1, a2, a3, a4⟩ := start ⟨.list, [], [], none⟩ (Or.inr (Or.inr (Or.inl ⟨[], rfl⟩))) rfl
      simp only [hn] at hc
      rw [M.bind_run] at hc
      split at hc
      · rename_i u g' he
        simp only [M.pure_run, Res.ok.injEq] at hc
        obtain ⟨rfl, rfl⟩ := hc
        have := loop (fun p => p) (fun _ d => Node.add (some d)) storeAdd ps _ g' (by
            intro x hx
            obtain ⟨b, h1, _, h3⟩ := w.up a ha x (by rw [hn]; simpa [Node.children] using hx)
            exact ⟨b, h1, h3⟩) a1 a2 a3 a4 he
        exact ⟨this.1, this.2.1, rfl, this.2.2⟩
      · simp at hc
      · simp at hc
      · simp at hc
    · obtain ⟨a1, a2, a3, a4⟩ := start ⟨.dict, [], [], none⟩ (Or.inr (Or.inr (Or.inr ⟨[], rfl, Dict.sorted_nil⟩))) rfl
      simp only [hn] at hc
      rw [M.bind_run] at hc
      split at hc
      · rename_i u g' he
        simp only [M.pure_run, Res.ok.injEq] at hc
        obtain ⟨rfl, rfl⟩ := hc
        have := loop (fun (kp : Str × Ptr) => kp.2) (fun kp d => Node.setKey kp.1 (some d)) storeKey d _ g' (by
            intro x hx
            obtain ⟨b, h1, _, h3⟩ := w.up a ha x.2 (by rw [hn]; simp only [Node.children, List.append_nil]; exact List.mem_map_of_mem hx)
            exact ⟨b, h1, h3⟩) a1 a2 a3 a4 he
        exact ⟨this.1, this.2.1, rfl, this.2.2⟩
      · simp at hc
      · simp at hc
      · simp at hc

/-- `Copy` of a well-formed datagram: succeeds, builds the same tree from fresh objects, keeps the heap a forest. -/
theorem copyAll_ok {h : Heap} (w : WF h) {a : Nat} (ha : a < h.next) {t : Tree} {S : Addr → Prop}
    (hS : ∀ x, S x → x < h.next) (ht : Rep h S t a) :
    ∃ h', Datagram.copyAll a h = .ok h.next h' ∧ CopyShape h h.next h' ∧ Rep h' (Fresh h h') t h.next := by
  obtain ⟨u, hu, hd⟩ := w.tree ha
  have : u = t := Rep.unique _ _ _ hu ht
  subst this
  obtain ⟨c, h', hc, he, hr⟩ := copy_builds u (h.next + 1) h S a (by omega) hS ht
  have hsh := copy_shape (h.next + 1) a c h h' w ha hc
  have hcc := hsh.2.2.1
  subst hcc
  exact ⟨h', hc, hsh, hr⟩

end LP
