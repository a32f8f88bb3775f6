import Verif.Lemma.WF
/-! Reachability in the object graph and locality of updates. -/
namespace LP
open Heap

theorem Reach.trans {h : Heap} {a b c : Nat} (h1 : Reach h a b) (h2 : Reach h b c) : Reach h a c := by
  induction h2 with
  | refl => exact h1
  | step _ hm ih => exact ih.step hm

theorem Reach.child {h : Heap} {a b c : Nat} (hm : some b ∈ (h.node a).children) (h2 : Reach h b c) : Reach h a c :=
  (Reach.refl.step hm).trans h2

theorem Reach.bounds {h : Heap} (w : WF h) {a b : Nat} (ha : a < h.next) (hr : Reach h a b) : a ≤ b ∧ b < h.next := by
  induction hr with
  | refl => exact ⟨Nat.le_refl _, ha⟩
  | step _ hm ih =>
    obtain ⟨c, hc, h1, h2⟩ := w.up _ ih.2 _ hm
    simp only [Option.some.injEq] at hc
    subst hc
    exact ⟨by omega, h2⟩

/-- A child has one parent. -/
theorem WF.parent_unique {h : Heap} (w : WF h) {a a' b : Nat} (ha : a < h.next) (ha' : a' < h.next)
    (h1 : some b ∈ (h.node a).children) (h2 : some b ∈ (h.node a').children) : a = a' := by
  by_cases e : a = a'
  · exact e
  · exact absurd h2 (w.disj a a' ha ha' e _ h1)

/-- Different children of one object have nothing in common. -/
theorem WF.siblings {h : Heap} (w : WF h) {a b c z : Nat} (ha : a < h.next) (hb : some b ∈ (h.node a).children)
    (hc : some c ∈ (h.node a).children) (hne : b ≠ c) (h1 : Reach h b z) : ¬ Reach h c z := by
  obtain ⟨b', hb', hab, hbn⟩ := w.up a ha _ hb
  obtain ⟨c', hc', hac, hcn⟩ := w.up a ha _ hc
  simp only [Option.some.injEq] at hb' hc'
  subst hb' hc'
  induction h1 with
  | refl =>
    intro h2
    cases h2 with
    | refl => exact hne rfl
    | step h3 hm =>
      have hw := Reach.bounds w hcn h3
      have := w.parent_unique ha hw.2 hb hm
      omega
  | step h3 hm ih =>
    intro h2
    have hw3 := Reach.bounds w hbn h3
    cases h2 with
    | refl =>
      have := w.parent_unique ha hw3.2 hc hm
      omega
    | step h4 hm' =>
      have hw4 := Reach.bounds w hcn h4
      have := w.parent_unique hw3.2 hw4.2 hm hm'
      subst this
      exact ih h4

/-- Different roots have nothing in common. -/
theorem WF.roots {h : Heap} (w : WF h) {b c z : Nat} (hb : b < h.next) (hc : c < h.next) (hpb : NoParent h b)
    (hpc : NoParent h c) (hne : b ≠ c) (h1 : Reach h b z) : ¬ Reach h c z := by
  induction h1 with
  | refl =>
    intro h2
    cases h2 with
    | refl => exact hne rfl
    | step h3 hm => exact hpb _ (Reach.bounds w hc h3).2 hm
  | step h3 hm ih =>
    intro h2
    have hw3 := Reach.bounds w hb h3
    cases h2 with
    | refl => exact hpc _ hw3.2 hm
    | step h4 hm' =>
      have := w.parent_unique hw3.2 (Reach.bounds w hc h4).2 hm hm'
      subst this
      exact ih h4

/-- A representation only involves reachable objects. -/
theorem Rep.reach {h : Heap} {S : Addr → Prop} : ∀ (t : Tree) (a : Nat), Rep h S t a → Rep h (fun x => S x ∧ Reach h a x) t a := by
  have lift : ∀ (r a : Nat) (t : Tree), Reach h r a → Rep h (fun x => S x ∧ Reach h a x) t a → Rep h (fun x => S x ∧ Reach h r x) t a :=
    fun r a t hr h1 => Rep.mono (fun x ⟨p, q⟩ => ⟨p, hr.trans q⟩) (fun _ _ => rfl) _ _ h1
  intro t
  induction t using Tree.ind with
  | empty => intro a hr; exact ⟨⟨hr.1, .refl⟩, hr.2⟩
  | value v => intro a hr; exact ⟨⟨hr.1, .refl⟩, hr.2⟩
  | list ts ih =>
    intro a hr
    obtain ⟨hs, ps, hp, hl⟩ := hr
    refine ⟨⟨hs, .refl⟩, ps, hp, ?_⟩
    rw [RepL_iff] at hl ⊢
    refine ⟨hl.1, fun i h1 h2 => ?_⟩
    obtain ⟨b, hb, hr⟩ := hl.2 i h1 h2
    refine ⟨b, hb, lift a b _ (Reach.refl.step ?_) (ih _ (List.getElem_mem h1) b hr)⟩
    rw [hp]; simp only [Node.children, List.map_nil, List.nil_append]
    rw [← hb]; exact List.getElem_mem h2
  | dict ds ih =>
    intro a hr
    obtain ⟨hs, d, hp, hsd, hl⟩ := hr
    refine ⟨⟨hs, .refl⟩, d, hp, hsd, ?_⟩
    rw [RepD_iff, RepL_iff] at hl ⊢
    refine ⟨hl.1, hl.2.1, fun i h1 h2 => ?_⟩
    obtain ⟨b, hb, hr⟩ := hl.2.2 i h1 h2
    have h1' : i < ds.length := by simpa using h1
    refine ⟨b, hb, ?_⟩
    simp only [List.getElem_map] at hr ⊢
    refine lift a b _ (Reach.refl.step ?_) (ih ds[i] (List.getElem_mem h1') b hr)
    rw [hp]; simp only [Node.children, List.append_nil]
    rw [← hb]; exact List.getElem_mem h2

/-- `b` cannot occur strictly below itself. -/
theorem Rep.avoid {h : Heap} {S S' : Addr → Prop} {t : Tree} {a : Nat} (ha : Rep h S' t a) :
    ∀ (u : Tree) (b : Nat), u.depth < t.depth → Rep h S u b → Rep h (fun x => S x ∧ x ≠ a) u b := by
  intro u
  have hne : ∀ (u : Tree) (b : Nat), u.depth < t.depth → Rep h S u b → b ≠ a := by
    intro u b hd hr e
    subst e
    have := Rep.unique _ _ _ hr ha
    subst this
    omega
  induction u using Tree.ind with
  | empty => intro b hd hr; exact ⟨⟨hr.1, hne _ _ hd hr⟩, hr.2⟩
  | value v => intro b hd hr; exact ⟨⟨hr.1, hne _ _ hd hr⟩, hr.2⟩
  | list ts ih =>
    intro b hd hr
    have hb := hne _ _ hd hr
    obtain ⟨hs, ps, hp, hl⟩ := hr
    refine ⟨⟨hs, hb⟩, ps, hp, ?_⟩
    rw [RepL_iff] at hl ⊢
    refine ⟨hl.1, fun i h1 h2 => ?_⟩
    obtain ⟨c, hc, hr⟩ := hl.2 i h1 h2
    refine ⟨c, hc, ih _ (List.getElem_mem h1) c ?_ hr⟩
    have := Tree.depth_mem_list (List.getElem_mem h1)
    simp only [Tree.depth] at hd
    omega
  | dict ds ih =>
    intro b hd hr
    have hb := hne _ _ hd hr
    obtain ⟨hs, d, hp, hsd, hl⟩ := hr
    refine ⟨⟨hs, hb⟩, d, hp, hsd, ?_⟩
    rw [RepD_iff, RepL_iff] at hl ⊢
    refine ⟨hl.1, hl.2.1, fun i h1 h2 => ?_⟩
    obtain ⟨c, hc, hr⟩ := hl.2.2 i h1 h2
    have h1' : i < ds.length := by simpa using h1
    simp only [List.getElem_map] at hr ⊢
    refine ⟨c, by simpa using hc, ih ds[i] (List.getElem_mem h1') c ?_ hr⟩
    have := Tree.depth_mem_dict (List.getElem_mem h1')
    simp only [Tree.depth] at hd
    omega

/-- Moving the root object of a tree to another address. -/
theorem Rep.moveRoot {h h' : Heap} {S S' : Addr → Prop} {t : Tree} {a x : Nat} (hr : Rep h S t a) (hx : S' x)
    (hn : h'.node x = h.node a) (hS : ∀ y, S y → y ≠ a → S' y ∧ h'.node y = h.node y) : Rep h' S' t x := by
  have hsub : ∀ (u : Tree) (b : Nat), u.depth < t.depth → Rep h S u b → Rep h' S' u b := by
    intro u b hd hu
    refine Rep.mono (h := h) (S := fun y => S y ∧ y ≠ a) ?_ ?_ _ _ (Rep.avoid hr u b hd hu)
    · intro y ⟨h1, h2⟩; exact (hS y h1 h2).1
    · intro y ⟨h1, h2⟩; exact (hS y h1 h2).2
  cases t with
  | empty => exact ⟨hx, by rw [hn]; exact hr.2⟩
  | value v => exact ⟨hx, by rw [hn]; exact hr.2⟩
  | list ts =>
    obtain ⟨hs, ps, hp, hl⟩ := hr
    refine ⟨hx, ps, by rw [hn]; exact hp, ?_⟩
    rw [RepL_iff] at hl ⊢
    refine ⟨hl.1, fun i h1 h2 => ?_⟩
    obtain ⟨c, hc, hr⟩ := hl.2 i h1 h2
    refine ⟨c, hc, hsub _ _ ?_ hr⟩
    have := Tree.depth_mem_list (List.getElem_mem h1)
    simp only [Tree.depth]; omega
  | dict ds =>
    obtain ⟨hs, d, hp, hsd, hl⟩ := hr
    refine ⟨hx, d, by rw [hn]; exact hp, hsd, ?_⟩
    rw [RepD_iff, RepL_iff] at hl ⊢
    refine ⟨hl.1, hl.2.1, fun i h1 h2 => ?_⟩
    obtain ⟨c, hc, hr⟩ := hl.2.2 i h1 h2
    refine ⟨c, hc, hsub _ _ ?_ hr⟩
    have h1' : i < ds.length := by simpa using h1
    have := Tree.depth_mem_dict (List.getElem_mem h1')
    simp only [List.getElem_map]
    simp only [Tree.depth]; omega

end LP
