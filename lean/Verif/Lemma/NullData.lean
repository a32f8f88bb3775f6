import Verif.Lemma.Overload
/-! Copying never returns from a datagram with a null value inside. -/
namespace LP.Overload
open Heap Tree

theorem each_inv {α σ : Type} {f : α → M σ Unit} (P : σ → Prop) (Q : α → Prop) (xs : List α)
    (hf : ∀ x ∈ xs, ∀ h h', P h → f x h = .ok () h' → P h' ∧ Q x) {h h' : σ} (hP : P h) (he : M.each f xs h = .ok () h') :
    P h' ∧ ∀ x ∈ xs, Q x := by
  induction xs generalizing h with
  | nil => simp only [M.each, M.pure_run', Res.ok.injEq, true_and] at he; subst he; exact ⟨hP, by simp⟩
  | cons x xs ih =>
    simp only [M.each, M.bind_run'] at he
    cases hx : f x h with
    | ok u h1 =>
      rw [hx] at he
      have h2 := hf x (by simp) h h1 hP hx
      obtain ⟨h3, h4⟩ := ih (fun y hy => hf y (by simp [hy])) h2.1 he
      refine ⟨h3, ?_⟩
      intro y hy
      rcases List.mem_cons.mp hy with rfl | hy
      · exact h2.2
      · exact h4 y hy
    | throw e h1 => rw [hx] at he; cases he
    | ub => rw [hx] at he; cases he
    | fuel => rw [hx] at he; cases he

theorem bind_ok {α β σ : Type} {m : M σ α} {f : α → M σ β} {s s' : σ} {b : β} (he : (m >>= f) s = .ok b s') :
    ∃ a s1, m s = .ok a s1 ∧ f a s1 = .ok b s' := by
  rw [M.bind_run] at he
  cases hm : m s with
  | ok a s1 => rw [hm] at he; exact ⟨a, s1, rfl, he⟩
  | throw e s1 => rw [hm] at he; cases he
  | ub => rw [hm] at he; cases he
  | fuel => rw [hm] at he; cases he

/-- Objects keep content in their current representation only and children exist. -/
structure Tidy (h : Heap) : Prop where
  dict : ∀ z, z < h.next → (h.node z).ty ≠ .dict → (h.node z).dict = []
  list : ∀ z, z < h.next → (h.node z).ty ≠ .list → (h.node z).list = []
  child : ∀ z, z < h.next → ∀ b, some b ∈ (h.node z).children → b < h.next

theorem reach_head {h : Heap} {a b : Nat} (hr : Reach h a b) : b = a ∨ ∃ c, some c ∈ (h.node a).children ∧ Reach h c b := by
  induction hr with
  | refl => exact Or.inl rfl
  | step hr hc ih =>
    rcases ih with rfl | ⟨c, h1, h2⟩
    · exact Or.inr ⟨_, hc, .refl⟩
    · exact Or.inr ⟨c, h1, h2.step hc⟩

/-- A copy that returns leaves existing objects alone and its source has no null value inside. -/
theorem copy_ok {h0 : Heap} (tidy : Tidy h0) (n : Nat) : ∀ (h : Heap) (a c : Nat) (h' : Heap), Ext h0 h → a < h0.next →
    copy n a h = .ok c h' → (Ext h0 h' ∧ h0.next ≤ c) ∧ ∀ b, Reach h0 a b → (h0.node b).ty = .value → (h0.node b).value ≠ none := by
  induction n with
  | zero => intro h a c h' _ _ he; cases he
  | succ n ih =>
    intro h a c h' hx ha he
    have hna : h.node a = h0.node a := hx.2 a ha
    have hne : a ≠ h.next := by have := hx.1; omega
    have hput : ∀ g : Heap, Ext h0 g → ∀ nd, Ext h0 (g.put h.next nd) := by
      intro g hg nd
      refine ⟨by simpa using hg.1, fun z hz => ?_⟩
      have h2 : z ≠ h.next := by have := hx.1; omega
      simp [h2, hg.2 z hz]
    have hstart : Ext h0 ({ (h.put h.next Node.empty) with next := h.next + 1 } : Heap) := by
      refine ⟨by have := hx.1; simp; omega, fun z hz => ?_⟩
      have h2 : z ≠ h.next := by have := hx.1; omega
      simp [h2, hx.2 z hz]
    have child : ∀ (p : Ptr) (k : Nat → M Heap Unit) (g g' : Heap), Ext h0 g → p ∈ (h0.node a).children →
        (∀ d q q', Ext h0 q → k d q = .ok () q' → Ext h0 q') →
        (do let d ← deref p >>= copy n; k d) g = .ok () g' →
        Ext h0 g' ∧ ∃ b, p = some b ∧ ∀ e, Reach h0 b e → (h0.node e).ty = .value → (h0.node e).value ≠ none := by
      intro p k g g' hg hp hk hr
      cases p with
      | none => simp [deref] at hr
      | some b =>
        simp only [M.bind_run, deref] at hr
        have hb := tidy.child a ha b hp
        cases hc : copy n b g with
        | ok d q =>
          rw [hc] at hr
          obtain ⟨⟨h1, _⟩, h2⟩ := ih g b d q hg hb hc
          exact ⟨hk d q g' h1 hr, b, rfl, h2⟩
        | throw e q => rw [hc] at hr; cases hr
        | ub => rw [hc] at hr; cases hr
        | fuel => rw [hc] at hr; cases hr
    simp only [copy, M.bind_run, alloc_run, M.get_run, M.modify_run, put_node, hne, if_false, hna] at he
    have hnon : ∀ (hd : (h0.node a).dict = []) (hl : (h0.node a).list = []) b, Reach h0 a b → b = a := by
      intro hd hl b hb
      rcases reach_head hb with rfl | ⟨d, hd', _⟩
      · rfl
      · simp [Node.children, hd, hl] at hd'
    cases hty : (h0.node a).ty with
    | empty =>
      simp only [hty, M.pure_run, Res.ok.injEq] at he
      obtain ⟨rfl, rfl⟩ := he
      refine ⟨⟨hput _ hstart _, hx.1⟩, fun b hb hv => ?_⟩
      have := hnon (tidy.dict a ha (by simp [hty])) (tidy.list a ha (by simp [hty])) b hb
      subst this; simp [hty] at hv
    | value =>
      simp only [hty] at he
      cases hva : (h0.node a).value with
      | none => simp [hva] at he
      | some v =>
        simp only [hva, Node.assignData] at he
        obtain ⟨rfl, rfl⟩ := he
        refine ⟨⟨hput _ (hput _ hstart _) _, hx.1⟩, fun b hb hv => ?_⟩
        have := hnon (tidy.dict a ha (by simp [hty])) (tidy.list a ha (by simp [hty])) b hb
        subst this; simp [hva]
    | dict =>
      simp only [hty] at he
      obtain ⟨u, g, hg, he⟩ := bind_ok he
      · simp only [M.pure_run, Res.ok.injEq] at he
        obtain ⟨rfl, rfl⟩ := he
        obtain ⟨h1, h2⟩ := each_inv (Ext h0)
          (fun kp : Str × Ptr => ∃ b, kp.2 = some b ∧ ∀ e, Reach h0 b e → (h0.node e).ty = .value → (h0.node e).value ≠ none) _
          (fun kp hkp q q' hq hr => child kp.2 _ q q' hq (by simp only [Node.children, List.mem_append, List.mem_map]; exact Or.inl ⟨kp, hkp, rfl⟩)
            (fun d r r' hr hk => by
              simp only [on, Node.setKey, M.modify_run, Res.ok.injEq, true_and] at hk
              subst hk; exact hput _ hr _) hr)
          (hput _ hstart _) hg
        refine ⟨⟨h1, hx.1⟩, fun b hb hv => ?_⟩
        rcases reach_head hb with rfl | ⟨d, hd, hr⟩
        · simp [hty] at hv
        · simp only [Node.children, tidy.list a ha (by simp [hty]), List.append_nil, List.mem_map] at hd
          obtain ⟨kp, hkp, hk2⟩ := hd
          obtain ⟨b', hb', h3⟩ := h2 kp hkp
          rw [hk2, Option.some.injEq] at hb'; subst hb'
          exact h3 b hr hv
    | list =>
      simp only [hty] at he
      obtain ⟨u, g, hg, he⟩ := bind_ok he
      · simp only [M.pure_run, Res.ok.injEq] at he
        obtain ⟨rfl, rfl⟩ := he
        obtain ⟨h1, h2⟩ := each_inv (Ext h0)
          (fun p : Ptr => ∃ b, p = some b ∧ ∀ e, Reach h0 b e → (h0.node e).ty = .value → (h0.node e).value ≠ none) _
          (fun p hp q q' hq hr => child p _ q q' hq (by simp only [Node.children, List.mem_append]; exact Or.inr hp)
            (fun d r r' hr hk => by
              simp only [on, Node.add, M.modify_run, Res.ok.injEq, true_and] at hk
              subst hk; exact hput _ hr _) hr)
          (hput _ hstart _) hg
        refine ⟨⟨h1, hx.1⟩, fun b hb hv => ?_⟩
        rcases reach_head hb with rfl | ⟨d, hd, hr⟩
        · simp [hty] at hv
        · simp only [Node.children, tidy.dict a ha (by simp [hty]), List.map_nil, List.nil_append] at hd
          obtain ⟨b', hb', h3⟩ := h2 _ hd
          rw [Option.some.injEq] at hb'; subst hb'
          exact h3 b hr hv

end LP.Overload
