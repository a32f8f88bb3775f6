import Verif.Lemma.Reach
import Verif.Spec.Graph
/-! Copying cyclic graphs; depth of acyclic graphs. -/
namespace LP
open Heap

theorem Rep.depth_le {h : Heap} : ∀ (t : Tree) (l : List Nat) (S : Nat → Prop) (a : Nat), (∀ x, S x → x ∈ l) → Rep h S t a → t.depth ≤ l.length := by
  intro t
  induction t using Tree.ind with
  | empty => intro l S a hS ht; have := hS a ht.1; cases l <;> simp_all [Tree.depth]
  | value v => intro l S a hS ht; have := hS a ht.1; cases l <;> simp_all [Tree.depth]
  | list ts ih =>
    intro l S a hS ht
    have ht' := ht
    obtain ⟨ha, ps, _, hr⟩ := ht
    have hal := hS a ha
    have hpos : 0 < l.length := List.length_pos_of_mem hal
    have key : ∀ t ∈ ts, t.depth ≤ l.length - 1 := by
      intro t hmem
      rw [RepL_iff] at hr
      obtain ⟨i, hi, rfl⟩ := List.getElem_of_mem hmem
      obtain ⟨b, _, hb⟩ := hr.2 i hi (by omega)
      have hlt : (ts[i]).depth < (Tree.list ts).depth := by have := Tree.depth_mem_list hmem; simp only [Tree.depth]; omega
      have := ih _ hmem (l.erase a) _ b (fun x hx => (List.mem_erase_of_ne hx.2).mpr (hS x hx.1)) (Rep.avoid ht' _ _ hlt hb)
      rwa [List.length_erase_of_mem hal] at this
    have : Tree.depth.depthL ts ≤ l.length - 1 := by
      clear ih ht' hr
      induction ts with
      | nil => simp [Tree.depth.depthL]
      | cons t ts ih => simp only [Tree.depth.depthL]; exact Nat.max_le.mpr ⟨key t (by simp), ih (fun t ht => key t (by simp [ht]))⟩
    simp only [Tree.depth]; omega
  | dict ds ih =>
    intro l S a hS ht
    have ht' := ht
    obtain ⟨ha, d, _, _, hr⟩ := ht
    have hal := hS a ha
    have hpos : 0 < l.length := List.length_pos_of_mem hal
    have key : ∀ e ∈ ds, e.2.depth ≤ l.length - 1 := by
      intro e hmem
      rw [RepD_iff, RepL_iff] at hr
      obtain ⟨i, hi, rfl⟩ := List.getElem_of_mem hmem
      obtain ⟨b, _, hb⟩ := hr.2.2 i (by simpa using hi) (by have := hr.2.1; simp only [List.length_map] at this ⊢; omega)
      simp only [List.getElem_map] at hb
      have hlt : (ds[i]).2.depth < (Tree.dict ds).depth := by have := Tree.depth_mem_dict hmem; simp only [Tree.depth]; omega
      have := ih _ hmem (l.erase a) _ b (fun x hx => (List.mem_erase_of_ne hx.2).mpr (hS x hx.1)) (Rep.avoid ht' _ _ hlt hb)
      rwa [List.length_erase_of_mem hal] at this
    have : Tree.depth.depthD ds ≤ l.length - 1 := by
      clear ih ht' hr
      induction ds with
      | nil => simp [Tree.depth.depthD]
      | cons e ds ih => obtain ⟨k, t⟩ := e; simp only [Tree.depth.depthD]; exact Nat.max_le.mpr ⟨key (k, t) (by simp), ih (fun t ht => key t (by simp [ht]))⟩
    simp only [Tree.depth]; omega

/-- An acyclic graph over `next` objects has depth at most `next`. -/
theorem Rep.depth_next {h : Heap} {t : Tree} {a : Nat} (hr : Rep h (fun x => x < h.next) t a) : t.depth ≤ h.next := by
  have := Rep.depth_le t (List.range h.next) _ a (fun x hx => List.mem_range.mpr hx) hr
  simpa using this

/-- The part of `copy` after allocation. -/
def copyBody (n : Nat) (c : Nat) (src : Node Ptr) : M Heap Unit :=
  match src.ty with
  | .empty => pure ()
  | .dict => M.each (fun (kp : Str × Ptr) => do
      let d ← deref kp.2 >>= copy n
      on c (Node.setKey kp.1 (some d))) src.dict
  | .list => M.each (fun (p : Ptr) => do
      let d ← deref p >>= copy n
      on c (Node.add (some d))) src.list
  | .value => match src.value with
    | some v => on c (Node.assignData (some v))
    | none => M.ub

/-- The heap just before the containers are filled. -/
def copyStart (h : Heap) (src : Node Ptr) : Heap :=
  ({ (h.put h.next Node.empty) with next := h.next + 1 } : Heap).put h.next { (Node.empty : Node Ptr) with ty := src.ty }

theorem copyStart_ext (h : Heap) (src : Node Ptr) : Ext h (copyStart h src) := by
  refine ⟨by simp [copyStart], fun a ha => ?_⟩
  simp [copyStart, Nat.ne_of_lt ha]

theorem copy_eq (n a : Nat) (h : Heap) (ha : a < h.next) :
    copy (n + 1) a h = match copyBody n h.next (h.node a) (copyStart h (h.node a)) with
      | .ok _ h' => .ok h.next h' | .throw e h' => .throw e h' | .ub => .ub | .fuel => .fuel := by
  have hna : (h.put h.next Node.empty).node a = h.node a := by simp [Nat.ne_of_lt ha]
  simp only [copy, M.bind_run, alloc_run, M.get_run, hna, M.modify_run, M.pure_run, copyBody]
  have : ({ (h.put h.next Node.empty) with next := h.next + 1 } : Heap).put h.next
      { ((h.put h.next Node.empty).node h.next) with ty := (h.node a).ty } = copyStart h (h.node a) := by
    simp only [copyStart, put_node, if_true]
  rw [this]
  cases (h.node a).ty with
  | empty => rfl
  | dict => simp only; rw [M.bind_run]; split <;> simp_all
  | list => simp only; rw [M.bind_run]; split <;> simp_all
  | value => cases (h.node a).value <;> simp only <;> rw [M.bind_run] <;> split <;> simp_all

/-- Invariant of a loop whose body only extends the heap below `lo`. -/
theorem each_ext {α : Type} (f : α → M Heap Unit) (P : Heap → Prop) (xs : List α)
    (hstep : ∀ x ∈ xs, ∀ h u h', P h → f x h = .ok u h' → P h') : ∀ h u h', P h → M.each f xs h = .ok u h' → P h' := by
  induction xs with
  | nil => intro h u h' hp hr; simp only [M.each_nil, Res.ok.injEq] at hr; rw [← hr.2]; exact hp
  | cons x xs ih =>
    intro h u h' hp hr
    rw [M.each_cons] at hr
    split at hr <;> try (exact absurd hr (by simp))
    rename_i s' he
    exact ih (fun y hy => hstep y (by simp [hy])) _ _ _ (hstep x (by simp) _ _ _ hp he) hr

theorem on_ok_ext {α : Type} {c : Nat} {m : M (Node Ptr) α} {h h' : Heap} {x : α} (hr : on c m h = .ok x h') :
    h'.next = h.next ∧ ∀ a, a ≠ c → h'.node a = h.node a := by
  simp only [on] at hr
  split at hr <;> simp only [Res.ok.injEq, reduceCtorEq] at hr
  obtain ⟨_, rfl⟩ := hr
  exact ⟨rfl, fun a ha => by simp [ha]⟩

/-- The objects of `h0` are still as they were. -/
def Keeps (h0 h : Heap) : Prop := h0.next ≤ h.next ∧ ∀ a, a < h0.next → h.node a = h0.node a

theorem Keeps.node {h0 h : Heap} (k : Keeps h0 h) {a : Nat} (ha : a < h0.next) : h.node a = h0.node a := k.2 a ha

theorem Keeps.start {h0 h : Heap} (k : Keeps h0 h) (src : Node Ptr) : Keeps h0 (copyStart h src) := by
  have := copyStart_ext h src
  exact ⟨Nat.le_trans k.1 this.1, fun a ha => by rw [this.2 a (Nat.lt_of_lt_of_le ha k.1), k.2 a ha]⟩

theorem Keeps.on {h0 h h' : Heap} {α : Type} (k : Keeps h0 h) {c : Nat} (hc : h0.next ≤ c) {m : M (Node Ptr) α} {x : α}
    (hr : Heap.on c m h = .ok x h') : Keeps h0 h' := by
  have := on_ok_ext hr
  exact ⟨by rw [this.1]; exact k.1, fun a ha => by rw [this.2 a (by omega), k.2 a ha]⟩

/-- The loop body shared by both containers. -/
def copyItem (n c : Nat) (p : Ptr) (store : Nat → M (Node Ptr) Unit) : M Heap Unit := do
  let d ← deref p >>= copy n
  on c (store d)

theorem copyBody_dict (n c : Nat) (src : Node Ptr) (h : src.ty = .dict) :
    copyBody n c src = M.each (fun kp : Str × Ptr => copyItem n c kp.2 (fun d => Node.setKey kp.1 (some d))) src.dict := by
  simp only [copyBody, h, copyItem]

theorem copyBody_list (n c : Nat) (src : Node Ptr) (h : src.ty = .list) :
    copyBody n c src = M.each (fun p : Ptr => copyItem n c p (fun d => Node.add (some d))) src.list := by
  simp only [copyBody, h, copyItem]

theorem copyItem_keeps {h0 : Heap} {n c : Nat} {p : Ptr} {store : Nat → M (Node Ptr) Unit} (hc : h0.next ≤ c)
    (ih : ∀ b, p = some b → ∀ h c h', Keeps h0 h → copy n b h = .ok c h' → Keeps h0 h') :
    ∀ h u h', Keeps h0 h → copyItem n c p store h = .ok u h' → Keeps h0 h' := by
  intro h u h' k hr
  cases p with
  | none => simp [copyItem] at hr
  | some b =>
    simp only [copyItem, M.bind_run, deref_some] at hr
    split at hr <;> try (exact absurd hr (by simp))
    rename_i d s' hcp
    exact (ih b rfl _ _ _ k hcp).on hc hr

theorem copy_keeps {h0 : Heap} (hcl : Closed h0) : ∀ (n a : Nat), a < h0.next → ∀ (h : Heap) (c : Nat) (h' : Heap), Keeps h0 h →
    copy n a h = .ok c h' → Keeps h0 h' := by
  intro n
  induction n with
  | zero => intro a _ h c h' _ hr; simp [copy] at hr
  | succ n ih =>
    intro a ha h c h' k hr
    rw [copy_eq n a h (Nat.lt_of_lt_of_le ha k.1)] at hr
    rw [k.node ha] at hr
    split at hr <;> simp only [Res.ok.injEq, reduceCtorEq] at hr
    rename_i u g hg
    obtain ⟨_, rfl⟩ := hr
    have k1 := k.start (h0.node a)
    cases hty : (h0.node a).ty with
    | empty => simp only [copyBody, hty, M.pure_run, Res.ok.injEq] at hg; rw [← hg.2]; exact k1
    | value =>
      simp only [copyBody, hty] at hg
      cases hval : (h0.node a).value with
      | some v => rw [hval] at hg; exact k1.on k.1 hg
      | none => rw [hval] at hg; simp at hg
    | dict =>
      rw [copyBody_dict _ _ _ hty] at hg
      refine each_ext _ (Keeps h0) _ ?_ _ _ _ k1 hg
      intro kp hmem
      refine copyItem_keeps k.1 ?_
      intro b hb
      refine ih b (hcl a ha b ?_)
      simp only [Node.kids, hty]; exact List.mem_map.mpr ⟨kp, hmem, hb⟩
    | list =>
      rw [copyBody_list _ _ _ hty] at hg
      refine each_ext _ (Keeps h0) _ ?_ _ _ _ k1 hg
      intro p hmem
      refine copyItem_keeps k.1 ?_
      intro b hb
      refine ih b (hcl a ha b ?_)
      simp only [Node.kids, hty]; rw [← hb]; exact hmem

/-- A loop of steps each of which completes or runs out of fuel. -/
theorem each_total {α : Type} (f : α → M Heap Unit) (P : Heap → Prop) (xs : List α)
    (hstep : ∀ x ∈ xs, ∀ h, P h → (∃ h', f x h = .ok () h' ∧ P h') ∨ f x h = .fuel) :
    ∀ h, P h → (∃ h', M.each f xs h = .ok () h' ∧ P h') ∨ M.each f xs h = .fuel := by
  induction xs with
  | nil => intro h hp; exact Or.inl ⟨h, rfl, hp⟩
  | cons x xs ih =>
    intro h hp
    rw [M.each_cons]
    rcases hstep x (by simp) h hp with ⟨h1, hr, hp1⟩ | hr
    · simp only [hr]; exact ih (fun y hy => hstep y (by simp [hy])) h1 hp1
    · simp [hr]

/-- A loop over a list with an element whose step never completes does not complete. -/
theorem each_stuck {α : Type} (f : α → M Heap Unit) (P : Heap → Prop) (xs : List α)
    (hstep : ∀ x ∈ xs, ∀ h u h', P h → f x h = .ok u h' → P h') (x : α) (hx : x ∈ xs)
    (hbad : ∀ h u h', P h → f x h ≠ .ok u h') : ∀ h u h', P h → M.each f xs h ≠ .ok u h' := by
  induction xs with
  | nil => simp at hx
  | cons y ys ih =>
    intro h u h' hp hr
    rw [M.each_cons] at hr
    split at hr <;> try (exact absurd hr (by simp))
    rename_i s' he
    by_cases hxy : x = y
    · subst hxy; exact hbad _ _ _ hp he
    · have hx' : x ∈ ys := by simpa [hxy] using hx
      exact ih (fun z hz => hstep z (by simp [hz])) hx' _ _ _ (hstep y (by simp) _ _ _ hp he) hr

theorem Descends.head {h : Heap} {a b : Nat} (hd : Descends h a b) : a = b ∨ ∃ c, some c ∈ (h.node a).kids ∧ Descends h c b := by
  induction hd with
  | refl => exact Or.inl rfl
  | @step b c _ hm ih =>
    rcases ih with rfl | ⟨d, hd, hdb⟩
    · exact Or.inr ⟨c, hm, .refl⟩
    · exact Or.inr ⟨d, hd, hdb.step hm⟩

theorem Descends.cons {h : Heap} {a b c : Nat} (hm : some b ∈ (h.node a).kids) (hd : Descends h b c) : Descends h a c := by
  induction hd with
  | refl => exact Descends.refl.step hm
  | step _ hm' ih => exact ih.step hm'

theorem LeadsToCycle.kid {h : Heap} {a : Nat} (hc : LeadsToCycle h a) : ∃ c, some c ∈ (h.node a).kids ∧ LeadsToCycle h c := by
  obtain ⟨b, c, hab, hm, hcb⟩ := hc
  rcases hab.head with rfl | ⟨d, hd, hdb⟩
  · exact ⟨c, hm, a, c, hcb, hm, hcb⟩
  · exact ⟨d, hd, b, c, hdb, hm, hcb⟩

theorem copy_stuck {h0 : Heap} (hcl : Closed h0) : ∀ (n a : Nat), a < h0.next → LeadsToCycle h0 a →
    ∀ (h : Heap) (c : Nat) (h' : Heap), Keeps h0 h → copy n a h ≠ .ok c h' := by
  intro n
  induction n with
  | zero => intro a _ _ h c h' _ hr; simp [copy] at hr
  | succ n ih =>
    intro a ha hcyc h c h' k hr
    obtain ⟨b, hb, hbc⟩ := hcyc.kid
    have hbn := hcl a ha b hb
    rw [copy_eq n a h (Nat.lt_of_lt_of_le ha k.1)] at hr
    rw [k.node ha] at hr
    split at hr <;> simp only [Res.ok.injEq, reduceCtorEq] at hr
    rename_i u g hg
    have k1 := k.start (h0.node a)
    have stuck : ∀ store h u h', Keeps h0 h → copyItem n h.next (some b) store h ≠ .ok u h' := by
      intro store h u h' k hr
      simp only [copyItem, M.bind_run, deref_some] at hr
      split at hr <;> try (exact absurd hr (by simp))
      rename_i hcp
      exact ih b hbn hbc _ _ _ k hcp
    have stuck' : ∀ c store h u h', Keeps h0 h → copyItem n c (some b) store h ≠ .ok u h' := by
      intro c store h u h' k hr
      simp only [copyItem, M.bind_run, deref_some] at hr
      split at hr <;> try (exact absurd hr (by simp))
      rename_i hcp
      exact ih b hbn hbc _ _ _ k hcp
    cases hty : (h0.node a).ty with
    | empty => simp [Node.kids, hty] at hb
    | value => simp [Node.kids, hty] at hb
    | dict =>
      rw [copyBody_dict _ _ _ hty] at hg
      simp only [Node.kids, hty, List.mem_map] at hb
      obtain ⟨kp, hmem, hkp⟩ := hb
      refine each_stuck _ (Keeps h0) _ ?_ kp hmem ?_ _ _ _ k1 hg
      · intro kp hmem
        refine copyItem_keeps k.1 ?_
        intro b hb
        refine copy_keeps hcl n b (hcl a ha b ?_)
        simp only [Node.kids, hty]; exact List.mem_map.mpr ⟨kp, hmem, hb⟩
      · intro h u h' k; rw [hkp]; exact stuck' _ _ h u h' k
    | list =>
      rw [copyBody_list _ _ _ hty] at hg
      simp only [Node.kids, hty] at hb
      refine each_stuck _ (Keeps h0) _ ?_ (some b) hb ?_ _ _ _ k1 hg
      · intro p hmem
        refine copyItem_keeps k.1 ?_
        intro b hb
        refine copy_keeps hcl n b (hcl a ha b ?_)
        simp only [Node.kids, hty]; rw [← hb]; exact hmem
      · intro h u h' k; exact stuck' _ _ h u h' k

theorem on_total {c : Nat} {m : M (Node Ptr) Unit} {h : Heap} (hm : ∀ n, ∃ n', m n = .ok () n') : ∃ h', on c m h = .ok () h' := by
  obtain ⟨n', hn'⟩ := hm (h.node c)
  exact ⟨h.put c n', by simp only [on, hn']⟩

theorem NoNulls.kid {h : Heap} {a b : Nat} (hn : NoNulls h a) (hm : some b ∈ (h.node a).kids) : NoNulls h b :=
  fun c hc => hn c (Descends.cons hm hc)

theorem copy_total {h0 : Heap} (hcl : Closed h0) : ∀ (n a : Nat), a < h0.next → NoNulls h0 a →
    ∀ (h : Heap), Keeps h0 h → (∃ c h', copy n a h = .ok c h' ∧ Keeps h0 h') ∨ copy n a h = .fuel := by
  intro n
  induction n with
  | zero => intro a _ _ h _; exact Or.inr rfl
  | succ n ih =>
    intro a ha hnn h k
    have k1 := k.start (h0.node a)
    have item : ∀ c (p : Ptr) (store : Nat → M (Node Ptr) Unit), h0.next ≤ c → p ∈ (h0.node a).kids → (∀ d n, ∃ n', store d n = .ok () n') →
        ∀ h, Keeps h0 h → (∃ h', copyItem n c p store h = .ok () h' ∧ Keeps h0 h') ∨ copyItem n c p store h = .fuel := by
      intro c p store hc hp hst h k
      cases p with
      | none => exact absurd hp (hnn a .refl).1
      | some b =>
        have hbn := hcl a ha b hp
        simp only [copyItem, M.bind_run, deref_some]
        rcases ih b hbn (hnn.kid hp) h k with ⟨d, h1, hr, k2⟩ | hr
        · simp only [hr]
          obtain ⟨h2, hr2⟩ := on_total (c := c) (h := h1) (hst d)
          exact Or.inl ⟨h2, hr2, k2.on hc hr2⟩
        · simp [hr]
    have body : (∃ h', copyBody n h.next (h0.node a) (copyStart h (h0.node a)) = .ok () h' ∧ Keeps h0 h') ∨
        copyBody n h.next (h0.node a) (copyStart h (h0.node a)) = .fuel := by
      cases hty : (h0.node a).ty with
      | empty => simp only [copyBody, hty]; exact Or.inl ⟨_, rfl, k1⟩
      | value =>
        have hv := (hnn a .refl).2 hty
        simp only [copyBody, hty]
        cases hval : (h0.node a).value with
        | none => exact absurd hval hv
        | some v =>
          obtain ⟨h2, hr2⟩ := on_total (c := h.next) (h := copyStart h (h0.node a)) (m := Node.assignData (some v)) (fun n => ⟨_, rfl⟩)
          exact Or.inl ⟨h2, hr2, k1.on k.1 hr2⟩
      | dict =>
        rw [copyBody_dict _ _ _ hty]
        refine each_total _ (Keeps h0) _ ?_ _ k1
        intro kp hmem
        exact item _ _ _ k.1 (by simp only [Node.kids, hty]; exact List.mem_map_of_mem hmem) (fun d n => ⟨_, rfl⟩)
      | list =>
        rw [copyBody_list _ _ _ hty]
        refine each_total _ (Keeps h0) _ ?_ _ k1
        intro p hmem
        exact item _ _ _ k.1 (by simp only [Node.kids, hty]; exact hmem) (fun d n => ⟨_, rfl⟩)
    rw [copy_eq n a h (Nat.lt_of_lt_of_le ha k.1), k.node ha]
    rcases body with ⟨h', hr, k'⟩ | hr
    · rw [hr]; exact Or.inl ⟨_, _, rfl, k'⟩
    · rw [hr]; exact Or.inr rfl

theorem Keeps.refl (h : Heap) : Keeps h h := ⟨Nat.le_refl _, fun _ _ => rfl⟩

end LP
