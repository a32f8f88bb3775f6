import Verif.Lemma.BusStep
/-!
# What a stable subscriber receives
-/
namespace LP.Bus

theorem antMatches_iff (p t : Str) : antMatches p t = true ↔ TopicRule p t := by
  unfold antMatches TopicRule
  by_cases h : t = p
  · simp [h]
  · have h' : ¬p = t := fun e => h e.symm
    simp [h, h']

theorem antMatches_eq (p t : Str) : antMatches p t = decide (TopicRule p t) := by
  rw [Bool.eq_iff_iff, antMatches_iff, decide_eq_true_iff]

theorem due_empty {t : Str} {pub : List BMsg} {k n : Nat} (h : n ≤ k) : due t pub k n = [] := by
  unfold due; rw [Nat.sub_eq_zero_of_le h]; rfl

theorem due_succ {t : Str} {pub : List BMsg} {k n : Nat} {m : BMsg} (h : k ≤ n) (hm : pub[n]? = some m) :
    due t pub k (n + 1) = due t pub k n ++ (if TopicRule t m.topic then [n] else []) := by
  unfold due
  rw [Nat.succ_sub h, List.range'_concat, List.filter_append]
  congr 1
  have : k + 1 * (n - k) = n := by omega
  rw [this]
  simp [hm, List.filter_cons]

theorem due_congr {t : Str} {pub pub' : List BMsg} {k n : Nat} (h : ∀ i, i < n → pub'[i]? = pub[i]?) :
    due t pub' k n = due t pub k n := by
  unfold due
  apply List.filter_congr
  intro i hi
  rw [List.mem_range'_1] at hi
  rw [h i (by omega)]

theorem due_prefix {t : Str} {pub : List BMsg} {k n n' : Nat} (h : n ≤ n') : due t pub k n <+: due t pub k n' := by
  unfold due
  by_cases hk : k ≤ n
  · have : n' - k = (n - k) + (n' - n) := by omega
    rw [this, ← List.range'_append_1, List.filter_append]
    exact List.prefix_append _ _
  · rw [Nat.sub_eq_zero_of_le (by omega)]; exact List.nil_prefix

theorem RunPath.anc {w : World} {a b : Nat} (h : RunPath w a b) : Anc w a b := by
  induction h with
  | refl => exact .refl _
  | step _ hc _ ih => exact .step ih hc

theorem RunPath.ends {w : World} {a b : Nat} (h : RunPath w a b) :
    (w.bus a).running = true ∧ (w.bus b).running = true := by
  induction h with
  | refl h => exact ⟨h, h⟩
  | step _ _ hr ih => exact ⟨ih.1, hr⟩

/-- Everything above a bus reached through running buses is running. -/
theorem RunPath.above {w : World} (hw : WOk w) {b c : Nat} (h : RunPath w 0 b) (hc : Anc w c b) :
    (w.bus c).running = true := by
  induction h with
  | refl h =>
    have := hc.le hw
    have : c = 0 := by omega
    subst this; exact h
  | step hp hch hr ih =>
    cases hc with
    | refl => exact hr
    | step h1 h2 =>
      have := h2.parent_unique hw hch; subst this
      exact ih h1

/-- What the stable subscriber `s` has received from message `k` on. -/
structure LiveInv (s k : Nat) (σ : St) : Prop where
  exist : s < σ.w.ns
  got : (received s σ.log).filter (fun i => decide (k ≤ i)) =
    due (σ.w.sub s).topic σ.published k (σ.fates.length - pendS σ.w s (σ.w.sub s).home σ.phase.stack)

theorem live_external {s k : Nat} {σ σ' : St} (hi : Inv σ) (h : LiveInv s k σ) (hx : External σ σ') : LiveInv s k σ' := by
  refine ⟨Nat.lt_of_lt_of_le h.exist hx.grows.2.1, ?_⟩
  rw [hx.log, hx.fates, hx.stack, (hx.grows.2.2.2 s h.exist).1, (hx.grows.2.2.2 s h.exist).2,
    pendS_grows hx.grows (hi.wok.home s h.exist), h.got]
  obtain ⟨ms, hp, _⟩ := hx.queue
  rw [hp]
  symm
  apply due_congr
  intro i hlt
  rw [List.getElem?_append_left (by have := hi.len; omega)]

theorem live_run {s k : Nat} {σ σ' : St} {c : Choice} (hi : Inv σ) (h : LiveInv s k σ) (hl : Live σ.w s)
    (hc : c ≠ .throwing) (hr : rstep c σ = some σ') : LiveInv s k σ' := by
  -- a change of phase outside Distribute
  have quiet : ∀ (p : Phase) (q : List BMsg), p.stack = [] → σ.phase.stack = [] →
      LiveInv s k { σ with phase := p, w := { σ.w with queue := q } } := by
    intro p q hp hs
    refine ⟨h.exist, ?_⟩
    have := h.got
    rw [hs] at this
    simp only [hp]
    exact this
  unfold rstep at hr
  split at hr
  · rename_i hp; cases hr; exact quiet _ _ (by split <;> rfl) (by rw [hp]; rfl)
  · rename_i hp; cases hr; exact quiet _ _ (by split <;> rfl) (by rw [hp]; rfl)
  · rename_i hp; cases hr; exact quiet _ _ rfl (by rw [hp]; rfl)
  · rename_i hp; cases hr; exact quiet _ _ rfl (by rw [hp]; rfl)
  · rename_i hp; cases hr; exact quiet _ _ rfl (by rw [hp]; rfl)
  · rename_i hp; cases hr; exact quiet _ _ (by split <;> rfl) (by rw [hp]; rfl)
  · rename_i hp; cases hr; exact quiet _ _ rfl (by rw [hp]; rfl)
  · rename_i hp; cases hr; exact quiet _ _ rfl (by rw [hp]; rfl)
  · rename_i m batch hp
    split at hr
    · cases hr
      refine ⟨h.exist, ?_⟩
      have hg := h.got
      rw [hp] at hg
      simp only [Phase.stack, pendS_nil, Nat.sub_zero] at hg
      simp only [Phase.stack, pendS_cons, pendS_nil, pend, ind_pos hl.2.2.anc, List.length_append, List.length_singleton,
        Nat.add_zero, Nat.add_sub_cancel]
      exact hg
    · rename_i hn
      exact absurd hl.2.2.ends.1 hn
  · rename_i hp; cases hr; exact quiet _ _ rfl (by rw [hp]; rfl)
  · rename_i m f st batch hp
    have hc := hi.cur _ _ _ _ hp
    have hst : SOkStack σ.w (f :: st) := by have := hi.stack; rw [hp] at this; exact this
    have hpe := dstep_pend_live hi.wok (m := m) (i := σ.fates.length - 1) hl.1
      (fun c hc => hl.2.2.above hi.wok hc) (f :: st)
    have hg := h.got
    rw [hp] at hg
    simp only [Phase.stack] at hg
    have hone := pendS_le_one hi.wok h.exist hst
    cases hd : dstep σ.w m (σ.fates.length - 1) (f :: st) with
    | mk st' od =>
      rw [hd] at hpe
      simp only at hpe
      cases od with
      | none =>
        simp only [hd] at hr
        cases hr
        refine ⟨h.exist, ?_⟩
        simp only [Phase.stack]
        by_cases ht : touch (f :: st) = some s
        · rw [ind_pos ht] at hpe
          have h0 : pendS σ.w s (σ.w.sub s).home st' = 0 := by omega
          have h1 : pendS σ.w s (σ.w.sub s).home (f :: st) = 1 := by omega
          rw [h1] at hg
          rw [h0, hg, Nat.sub_zero]
          rcases dstep_none ht (by rw [hd]) with hm | hm
          · by_cases hk : k ≤ σ.fates.length - 1
            · have := due_succ (t := (σ.w.sub s).topic) (pub := σ.published) hk hc.2
              rw [Nat.sub_add_cancel hc.1] at this
              rw [this, if_neg, List.append_nil]
              rw [← antMatches_iff, hm]; simp
            · rw [due_empty (by omega), due_empty (by omega)]
          · exact absurd hm hl.2.1
        · rw [ind_neg ht, Nat.add_zero] at hpe
          rw [hpe]; exact hg
      | some d =>
        simp only [hd] at hr
        cases hr
        obtain ⟨ht, hidx, hmsg, hmatch, hcb⟩ :=
          dstep_delivery (w := σ.w) (m := m) (i := σ.fates.length - 1) (st := f :: st) (d := d) (by rw [hd])
        refine ⟨h.exist, ?_⟩
        simp only [Phase.stack]
        have hrec : received s (σ.log ++ [d]) = received s σ.log ++ (if d.sub = s then [d.idx] else []) := by
          unfold received
          rw [List.filter_append, List.map_append]
          congr 1
          by_cases e : d.sub = s <;> simp [e]
        rw [hrec, List.filter_append, hg]
        by_cases hs : d.sub = s
        · subst hs
          rw [ind_pos ht] at hpe
          have h0 : pendS σ.w d.sub (σ.w.sub d.sub).home st' = 0 := by omega
          have h1 : pendS σ.w d.sub (σ.w.sub d.sub).home (f :: st) = 1 := by omega
          rw [h1, h0, Nat.sub_zero, if_pos rfl, hidx]
          by_cases hk : k ≤ σ.fates.length - 1
          · have := due_succ (t := (σ.w.sub d.sub).topic) (pub := σ.published) hk hc.2
            rw [Nat.sub_add_cancel hc.1] at this
            rw [this, if_pos ((antMatches_iff _ _).1 hmatch)]
            simp [hk]
          · rw [due_empty (by omega), due_empty (by omega)]
            simp; omega
        · have : touch (f :: st) ≠ some s := by rw [ht]; simpa using hs
          rw [ind_neg this, Nat.add_zero] at hpe
          rw [if_neg hs, hpe]; simp
  · rename_i m st batch hp
    cases hr
    refine ⟨h.exist, ?_⟩
    have := h.got
    rw [hp] at this
    exact this
  · exact absurd rfl hc
  · cases hr

theorem live_exec {s k : Nat} {σ σ' : St} {as : List Act} (hi : Inv σ) (h : LiveInv s k σ)
    (hl : Throughout (fun τ => Live τ.w s) σ as) (hc : .run .throwing ∉ as) (he : exec σ as = some σ') :
    LiveInv s k σ' := by
  induction as generalizing σ with
  | nil => simp [exec] at he; subst he; exact h
  | cons a as ih =>
    simp only [exec] at he
    cases hs : step σ a with
    | none => simp [hs] at he
    | some τ =>
      simp only [hs] at he
      refine ih (inv_step hi hs) ?_ (hl.2 τ hs) (fun hm => hc (by simp [hm])) he
      by_cases hr : ∃ c, a = .run c
      · obtain ⟨c, rfl⟩ := hr
        exact live_run hi h hl.1 (by rintro rfl; exact hc (by simp)) hs
      · exact live_external hi h (step_external hi.wok (fun c e => hr ⟨c, e⟩) hs)

/-- At any moment nothing with a number not yet taken up was received. -/
theorem live_start {s : Nat} {σ : St} (hi : Inv σ) (hs : s < σ.w.ns) : LiveInv s σ.fates.length σ := by
  refine ⟨hs, ?_⟩
  rw [due_empty (Nat.sub_le _ _)]
  apply List.filter_eq_nil_iff.2
  intro i hm
  obtain ⟨d, hd, rfl⟩ := List.mem_map.1 hm
  have := (hi.log d (List.mem_filter.1 hd).1).2.1
  simp; omega

/-- Everything the subscriber received has at least the number `k`, and it is not due to receive anything below. -/
structure FreshInv (s k : Nat) (t : Str) (σ : St) : Prop where
  exist : s < σ.w.ns
  room : k + pendS σ.w s (σ.w.sub s).home σ.phase.stack ≤ σ.fates.length
  above : ∀ d ∈ σ.log, d.sub = s → k ≤ d.idx
  topic : (σ.w.sub s).topic = t

theorem fresh_external {s k : Nat} {t : Str} {σ σ' : St} (hi : Inv σ) (h : FreshInv s k t σ) (hx : External σ σ') : FreshInv s k t σ' := by
  refine ⟨Nat.lt_of_lt_of_le h.exist hx.grows.2.1, ?_, by rw [hx.log]; exact h.above,
    by rw [(hx.grows.2.2.2 s h.exist).2]; exact h.topic⟩
  rw [hx.fates, hx.stack, (hx.grows.2.2.2 s h.exist).1, pendS_grows hx.grows (hi.wok.home s h.exist)]
  exact h.room

theorem fresh_run {s k : Nat} {t : Str} {σ σ' : St} {c : Choice} (hi : Inv σ) (h : FreshInv s k t σ) (hl : Live σ.w s)
    (hr : rstep c σ = some σ') : FreshInv s k t σ' := by
  have hroom := h.room
  have quiet : ∀ (p : Phase) (q : List BMsg), p.stack = [] →
      FreshInv s k t { σ with phase := p, w := { σ.w with queue := q } } := by
    intro p q hp
    refine ⟨h.exist, ?_, h.above, h.topic⟩
    simp only [hp, pendS_nil]; omega
  unfold rstep at hr
  split at hr
  · cases hr; exact quiet _ _ (by split <;> rfl)
  · cases hr; exact quiet _ _ (by split <;> rfl)
  · cases hr; exact quiet _ _ rfl
  · cases hr; exact quiet _ _ rfl
  · cases hr; exact quiet _ _ rfl
  · cases hr; exact quiet _ _ (by split <;> rfl)
  · cases hr; exact quiet _ _ rfl
  · cases hr; exact quiet _ _ rfl
  · rename_i m batch hp
    rw [hp] at hroom
    simp only [Phase.stack, pendS_nil] at hroom
    split at hr
    · cases hr
      refine ⟨h.exist, ?_, h.above, h.topic⟩
      simp only [Phase.stack, pendS_cons, pendS_nil, pend, ind_pos hl.2.2.anc, List.length_append, List.length_singleton]
      omega
    · rename_i hn
      exact absurd hl.2.2.ends.1 hn
  · cases hr; exact quiet _ _ rfl
  · rename_i m f st batch hp
    have hpe := dstep_pend_live hi.wok (m := m) (i := σ.fates.length - 1) hl.1
      (fun c hc => hl.2.2.above hi.wok hc) (f :: st)
    rw [hp] at hroom
    simp only [Phase.stack] at hroom
    cases hd : dstep σ.w m (σ.fates.length - 1) (f :: st) with
    | mk st' od =>
      rw [hd] at hpe
      simp only at hpe
      cases od with
      | none =>
        simp only [hd] at hr
        cases hr
        refine ⟨h.exist, ?_, h.above, h.topic⟩
        simp only [Phase.stack]; omega
      | some d =>
        simp only [hd] at hr
        cases hr
        obtain ⟨ht, hidx, -⟩ :=
          dstep_delivery (w := σ.w) (m := m) (i := σ.fates.length - 1) (st := f :: st) (d := d) (by rw [hd])
        refine ⟨h.exist, by simp only [Phase.stack]; omega, ?_, h.topic⟩
        intro e he hes
        rcases List.mem_append.1 he with he | he
        · exact h.above e he hes
        · rw [List.mem_singleton] at he
          subst he
          subst hes
          rw [ind_pos ht] at hpe
          omega
  · rename_i m st batch hp
    cases hr
    refine ⟨h.exist, ?_, h.above, h.topic⟩
    rw [hp] at hroom
    exact hroom
  · cases hr
    exact ⟨h.exist, by simp only [Phase.stack, pendS_nil, List.length_append]; omega, h.above, h.topic⟩
  · cases hr

theorem fresh_exec {s k : Nat} {t : Str} {σ σ' : St} {as : List Act} (hi : Inv σ) (h : FreshInv s k t σ)
    (hl : Throughout (fun τ => Live τ.w s) σ as) (he : exec σ as = some σ') : FreshInv s k t σ' := by
  induction as generalizing σ with
  | nil => simp [exec] at he; subst he; exact h
  | cons a as ih =>
    simp only [exec] at he
    cases hs : step σ a with
    | none => simp [hs] at he
    | some τ =>
      simp only [hs] at he
      refine ih (inv_step hi hs) ?_ (hl.2 τ hs) he
      by_cases hr : ∃ c, a = .run c
      · obtain ⟨c, rfl⟩ := hr
        exact fresh_run hi h hl.1 hs
      · exact fresh_external hi h (step_external hi.wok (fun c e => hr ⟨c, e⟩) hs)

end LP.Bus
