import Verif.Spec.CallbackException
import Verif.Lemma.BusMore
/-!
# Lemmas about exceptions out of callbacks
-/
namespace LP.Bus

theorem throwing_cases {σ τ : St} (h : step σ (.run .throwing) = some τ) :
    ∃ m st batch, σ.phase = .visit m st true batch ∧
      τ = { σ with phase := .off, fates := σ.fates ++ batch.map (fun _ => .lost) } := by
  simp only [step] at h
  unfold rstep at h
  split at h <;> first | contradiction | skip
  rename_i m st batch hp _
  cases h
  exact ⟨m, st, batch, hp, rfl⟩

/-- Outside `Run` the bus thread cannot step. -/
theorem off_run {σ : St} {c : Choice} (h : σ.phase = .off) : rstep c σ = none := by
  unfold rstep
  rw [h]

theorem off_step {σ σ' : St} {a : Act} (hi : Inv σ) (hp : σ.phase = .off) (ha : a ≠ .start) (h : step σ a = some σ') :
    σ'.phase = .off ∧ σ'.log = σ.log ∧ σ'.fates = σ.fates ∧
      ∃ ms, σ'.published = σ.published ++ ms ∧ σ'.w.queue = σ.w.queue ++ ms := by
  by_cases hr : ∃ c, a = .run c
  · obtain ⟨c, rfl⟩ := hr
    simp only [step, off_run hp] at h
    contradiction
  · have hx := step_external hi.wok (fun c e => hr ⟨c, e⟩) h
    refine ⟨?_, hx.log, hx.fates, hx.queue⟩
    rcases hx.phase with e | ⟨_, e⟩ | ⟨e, _⟩
    · rw [e, hp]
    · exfalso
      cases a with
      | start => exact ha rfl
      | run c => exact hr ⟨c, rfl⟩
      | push i =>
        simp only [step] at h
        split at h <;> cases h
        rw [hp] at e; cases e
      | notify =>
        simp only [step] at h
        split at h <;> cases h
        simp only [hp] at e; cases e
      | _ =>
        simp only [step] at h
        split at h <;> cases h
        rw [hp] at e; cases e
    · rw [hp] at e; cases e

theorem off_exec {σ σ' : St} {as : List Act} (hi : Inv σ) (hp : σ.phase = .off) (ha : .start ∉ as)
    (h : exec σ as = some σ') :
    σ'.phase = .off ∧ σ'.log = σ.log ∧ σ'.fates = σ.fates ∧
      ∃ ms, σ'.published = σ.published ++ ms ∧ σ'.w.queue = σ.w.queue ++ ms := by
  refine exec_induct (P := fun τ => τ.phase = .off ∧ τ.log = σ.log ∧ τ.fates = σ.fates ∧
      ∃ ms, τ.published = σ.published ++ ms ∧ τ.w.queue = σ.w.queue ++ ms) (Q := fun a => a ≠ .start)
    ?_ hi (fun a hm e => ha (e ▸ hm)) ⟨hp, rfl, rfl, [], by simp, by simp⟩ h
  intro ρ a ρ' hi' hq hP hs
  obtain ⟨p1, p2, p3, ms, p4, p5⟩ := hP
  obtain ⟨q1, q2, q3, ms', q4, q5⟩ := off_step hi' p1 hq hs
  exact ⟨q1, q2.trans p2, q3.trans p3, ms ++ ms', by rw [q4, p4, List.append_assoc], by rw [q5, p5, List.append_assoc]⟩

/-- The number of messages taken up does not decrease. -/
theorem fates_step {σ σ' : St} {a : Act} (hi : Inv σ) (h : step σ a = some σ') : σ.fates.length ≤ σ'.fates.length := by
  by_cases hr : ∃ c, a = .run c
  · obtain ⟨c, rfl⟩ := hr
    simp only [step] at h
    unfold rstep at h
    split at h
    case h_11 =>
      rename_i m f st batch hp
      cases hd : dstep σ.w m (σ.fates.length - 1) (f :: st) with
      | mk st' od => cases od <;> simp only [hd] at h <;> cases h <;> exact Nat.le_refl _
    case h_9 => split at h <;> cases h <;> simp
    all_goals first
      | (cases h; simp)
      | cases h
  · rw [(step_external hi.wok (fun c e => hr ⟨c, e⟩) h).fates]; exact Nat.le_refl _

/-- What is delivered later than a moment without distribution in progress has a number not taken up then. -/
theorem later_exec {σ σ' : St} {as : List Act} (hi : Inv σ) (hp : σ.phase = .off) (h : exec σ as = some σ') :
    ∃ l, σ'.log = σ.log ++ l ∧ ∀ d ∈ l, σ.fates.length ≤ d.idx := by
  have := exec_induct (P := fun τ => σ.fates.length ≤ τ.fates.length ∧
      (∀ m st cb b, τ.phase = .visit m st cb b → σ.fates.length < τ.fates.length) ∧
      ∃ l, τ.log = σ.log ++ l ∧ ∀ d ∈ l, σ.fates.length ≤ d.idx) (Q := fun _ => True)
    ?_ hi (fun _ _ => trivial) ⟨Nat.le_refl _, (by intro m st cb b e; rw [hp] at e; cases e), [], by simp, by simp⟩ h
  · exact this.2.2
  intro ρ a ρ' hi' _ ⟨p1, p2, l, p3, p4⟩ hs
  have hf := fates_step hi' hs
  refine ⟨Nat.le_trans p1 hf, ?_, ?_⟩
  · intro m st cb b e
    by_cases hv : ∃ m st cb b, ρ.phase = .visit m st cb b
    · obtain ⟨m', st', cb', b', hv⟩ := hv
      exact Nat.lt_of_lt_of_le (p2 _ _ _ _ hv) hf
    · by_cases hr : ∃ c, a = .run c
      · obtain ⟨c, rfl⟩ := hr
        simp only [step] at hs
        unfold rstep at hs
        split at hs
        case h_9 =>
          split at hs <;> cases hs
          · simp; omega
          · cases e
        case h_1 => cases hs; simp only at e; split at e <;> cases e
        case h_2 => cases hs; simp only at e; split at e <;> cases e
        case h_6 => cases hs; simp only at e; split at e <;> cases e
        all_goals first
          | (exfalso; exact hv ⟨_, _, _, _, by assumption⟩)
          | (cases hs; cases e)
          | cases hs
      · exfalso
        have hx := step_external hi'.wok (fun c e => hr ⟨c, e⟩) hs
        rcases hx.phase with e' | ⟨_, e'⟩ | ⟨_, e'⟩
        · exact hv ⟨_, _, _, _, e' ▸ e⟩
        · rw [e'] at e; cases e
        · rw [e'] at e; cases e
  · rcases step_log hi' hs with e | ⟨m, st, batch, d, hv, e, _, hd, _⟩
    · exact ⟨l, by rw [e, p3], p4⟩
    · refine ⟨l ++ [d], by rw [e, p3, List.append_assoc], ?_⟩
      intro d' hd'
      rcases List.mem_append.1 hd' with h' | h'
      · exact p4 d' h'
      · simp only [List.mem_singleton] at h'
        subst h'
        have := p2 _ _ _ _ hv
        omega

/-- The callbacks of `N` are called at most once per `Start`. -/
def Bounded (N : List Nat) (n : Nat) (σ : St) : Prop :=
  (σ.phase = .off ∨ ∃ f ∈ N, runningCb σ = some f) ∧ calls N σ.log ≤ n ∨ calls N σ.log + 1 ≤ n

theorem run_log {σ σ' : St} {c : Choice} (h : rstep c σ = some σ') :
    σ'.log = σ.log ∨ (∃ m st batch, σ.phase = .visit m st false batch) ∧
      ∃ m st batch d, σ'.phase = .visit m st true batch ∧ σ'.log = σ.log ++ [d] := by
  unfold rstep at h
  split at h
  case h_11 =>
    rename_i m f st batch hp
    cases hd : dstep σ.w m (σ.fates.length - 1) (f :: st) with
    | mk st' od =>
      cases od with
      | none => simp only [hd] at h; cases h; exact .inl rfl
      | some d => simp only [hd] at h; cases h; exact .inr ⟨⟨_, _, _, hp⟩, _, _, _, d, rfl, rfl⟩
  case h_9 => split at h <;> cases h <;> exact .inl rfl
  all_goals first
    | (cases h; exact .inl rfl)
    | cases h

theorem bounded_step {N : List Nat} {n : Nat} {σ σ' : St} {a : Act} (hi : Inv σ) (hb : Bounded N n σ)
    (hd : ∀ f ∈ N, runningCb σ = some f → ∀ c, a = .run c → c = .throwing) (h : step σ a = some σ') :
    Bounded N (n + starts [a]) σ' := by
  by_cases hs : a = .start
  · subst hs
    have hx := step_external hi.wok (fun c e => by cases e) h
    right
    rw [hx.log]
    simp only [starts, List.filter]
    rcases hb with ⟨_, hb⟩ | hb <;> simp <;> omega
  have h0 : starts [a] = 0 := by cases a <;> first | rfl | exact absurd rfl hs
  rw [h0]
  by_cases hr : ∃ c, a = .run c
  · obtain ⟨c, rfl⟩ := hr
    rcases hb with ⟨hp | ⟨f, hf, hp⟩, hb⟩ | hb
    · simp only [step, off_run hp] at h; contradiction
    · have := hd f hf hp c rfl
      subst this
      obtain ⟨m, st, batch, _, e⟩ := throwing_cases h
      subst e
      exact .inl ⟨.inl rfl, hb⟩
    · rcases run_log h with e | ⟨⟨m, st, batch, _⟩, m', st', batch', d, e1, e2⟩
      · right; rw [e]; exact hb
      · by_cases hN : d.cb ∈ N
        · left
          refine ⟨.inr ⟨d.cb, hN, ?_⟩, ?_⟩
          · simp [runningCb, e1, e2]
          · simp only [e2, calls, List.filter_append, List.length_append] at hb ⊢
            simp [hN]; omega
        · right
          simp only [e2, calls, List.filter_append, List.length_append] at hb ⊢
          simp [hN]; omega
  · have hx := step_external hi.wok (fun c e => hr ⟨c, e⟩) h
    rcases hb with ⟨hp | ⟨f, hf, hp⟩, hb⟩ | hb
    · have := off_step hi hp hs h
      left; rw [this.2.1]; exact ⟨.inl this.1, hb⟩
    · left
      rw [hx.log]
      refine ⟨.inr ⟨f, hf, ?_⟩, hb⟩
      rcases hx.phase with e | ⟨e, _⟩ | ⟨e, _⟩
      · unfold runningCb at hp ⊢; rw [e, hx.log]; exact hp
      · simp [runningCb, e] at hp
      · simp [runningCb, e] at hp
    · right; rw [hx.log]; exact hb

theorem starts_cons (a : Act) (as : List Act) : starts (a :: as) = starts [a] + starts as := by
  cases a <;> simp [starts, List.filter]; omega

theorem bounded_exec {N : List Nat} {n : Nat} {σ σ' : St} {as : List Act} (hi : Inv σ) (hb : Bounded N n σ)
    (hd : Doomed N σ as) (h : exec σ as = some σ') : Bounded N (n + starts as) σ' := by
  induction as generalizing σ n with
  | nil => simp only [exec, Option.some.injEq] at h; subst h; simpa [starts] using hb
  | cons a as ih =>
    simp only [exec] at h
    cases hs : step σ a with
    | none => simp [hs] at h
    | some τ =>
      simp only [hs] at h
      rw [starts_cons, ← Nat.add_assoc]
      exact ih (inv_step hi hs) (bounded_step hi hb hd.1 hs) (hd.2 τ hs) h

/-- From inside a callback of `N` on, nothing is delivered before the next `Start`. -/
theorem doomed_exec {N : List Nat} {σ σ' : St} {as : List Act} {f : Nat} (hi : Inv σ) (hf : f ∈ N)
    (hr : runningCb σ = some f) (ha : .start ∉ as) (hd : Doomed N σ as) (h : exec σ as = some σ') :
    σ'.log = σ.log ∧ (runningCb σ' = some f ∨ σ'.phase = .off) := by
  induction as generalizing σ with
  | nil => simp only [exec, Option.some.injEq] at h; subst h; exact ⟨rfl, .inl hr⟩
  | cons a as ih =>
    simp only [exec] at h
    cases hs : step σ a with
    | none => simp [hs] at h
    | some τ =>
      simp only [hs] at h
      have ha' : .start ∉ as := fun e => ha (List.mem_cons_of_mem _ e)
      by_cases hc : ∃ c, a = .run c
      · obtain ⟨c, rfl⟩ := hc
        have := hd.1 f hf hr c rfl
        subst this
        obtain ⟨m, st, batch, _, e⟩ := throwing_cases hs
        have hp : τ.phase = .off := by rw [e]
        have hl : τ.log = σ.log := by rw [e]
        have := off_exec (inv_step hi hs) hp ha' h
        exact ⟨this.2.1.trans hl, .inr this.1⟩
      · have hx := step_external hi.wok (fun c e => hc ⟨c, e⟩) hs
        have hr' : runningCb τ = some f := by
          rcases hx.phase with e | ⟨e, _⟩ | ⟨e, _⟩
          · unfold runningCb at hr ⊢; rw [e, hx.log]; exact hr
          · simp [runningCb, e] at hr
          · simp [runningCb, e] at hr
        have := ih (inv_step hi hs) hr' ha' (hd.2 τ hs) h
        exact ⟨this.1.trans hx.log, this.2⟩

end LP.Bus
