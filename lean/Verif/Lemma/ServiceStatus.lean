import Verif.Lemma.Service
import Verif.Spec.Service
/-!
# What the service has reported
-/
namespace LP.Svc

/-- After the report that ends the start. -/
def Tail (σ : St) : Prop := ∃ x rest, σ.sent = first :: x :: rest ∧ Opened x ∧ (∀ s ∈ rest, Closing s) ∧ 2 ≤ σ.next ∧
  ((σ.handler ≠ .idle ∧ σ.handler ≠ .enter) ∨ σ.pc = .wokenS → Closing σ.status) ∧
  (∀ p, σ.handler = .again p → p = .stopPending ∨ p = .stopped)

/-- Where `Main` is, against what has been sent and what is about to be sent. -/
def Seen (σ : St) : Prop :=
  match σ.pc with
  | .enter | .refused => σ.sent = [] ∧ σ.handler = .idle ∧ σ.next = 1
  | .enterS => σ.sent = [] ∧ σ.handler = .idle ∧ σ.status = first ∧ σ.next = 2
  | .create | .ready | .noEvent => σ.sent = [first] ∧ σ.handler = .idle ∧ σ.next = 2 ∧ σ.status = first
  | .readyS | .noEventS => σ.sent = [first] ∧ σ.handler = .idle ∧ σ.next = 2 ∧ Opened σ.status
  | _ => Tail σ

theorem closing_fill {p : Phase} {σ : St} (hp : p = .stopPending ∨ p = .stopped) (hn : 2 ≤ σ.next) :
    Closing (fill p σ).status ∧ 2 ≤ (fill p σ).next := by
  rcases hp with rfl | rfl
  · simp only [fill, reduceCtorEq, or_self, if_false, Closing, false_and, true_and, false_or]; omega
  · simp [fill, Closing, hn]

theorem closing_phase {s : Status} (h : Closing s) : s.phase = .stopPending ∨ s.phase = .stopped := by
  rcases h.2 with h | h
  · exact .inr h.1
  · exact .inl h.1

theorem Tail.send {σ τ : St} (h : Tail σ) (hc : Closing σ.status) (h1 : τ.sent = σ.sent ++ [σ.status]) (h2 : τ.status = σ.status)
    (h3 : τ.next = σ.next) (h4 : ∀ p, τ.handler = .again p → σ.handler = .again p) : Tail τ := by
  obtain ⟨x, rest, e1, e2, e3, e4, e5, e6⟩ := h
  refine ⟨x, rest ++ [σ.status], by simp [h1, e1], e2, ?_, by rw [h3]; exact e4, fun _ => by rw [h2]; exact hc, fun p hp => e6 p (h4 p hp)⟩
  intro s hs
  rcases List.mem_append.1 hs with hs | hs
  · exact e3 s hs
  · rw [List.mem_singleton.1 hs]; exact hc

theorem Tail.keep {σ τ : St} (h : Tail σ) (h1 : τ.sent = σ.sent) (h2 : τ.status = σ.status) (h3 : τ.next = σ.next)
    (h4 : τ.handler = σ.handler) (h5 : τ.pc ≠ .wokenS) : Tail τ := by
  obtain ⟨x, rest, e1, e2, e3, e4, e5, e6⟩ := h
  exact ⟨x, rest, by rw [h1, e1], e2, e3, by rw [h3]; exact e4,
    fun hh => by rw [h2]; exact e5 (hh.elim (fun e => .inl (by rw [← h4]; exact e)) (fun e => absurd e h5)), by rw [h4]; exact e6⟩

theorem Tail.handler {σ σ' : St} (h : Tail σ) (hm : handlerStep σ = .to σ') : Tail σ' := by
  have h0 := h
  obtain ⟨x, rest, h1, h2, h3, h4, h5, h6⟩ := h
  unfold handlerStep at hm
  cases hh : σ.handler with
  | idle => rw [hh] at hm; cases hm
  | enter =>
    rw [hh] at hm; cases hm
    obtain ⟨h7, h8⟩ := closing_fill (p := .stopPending) (σ := σ) (.inl rfl) h4
    exact ⟨x, rest, by simp [h1], h2, h3, h8, fun _ => h7, by simp⟩
  | enterS =>
    rw [hh] at hm; cases hm
    exact h0.send (h5 (.inl (by simp [hh]))) rfl rfl rfl (by simp)
  | set =>
    rw [hh] at hm; cases hm
    exact ⟨x, rest, h1, h2, h3, h4, fun _ => h5 (.inl (by simp [hh])), by simp⟩
  | read =>
    rw [hh] at hm; cases hm
    have hc := h5 (.inl (by simp [hh]))
    exact ⟨x, rest, h1, h2, h3, h4, fun _ => hc, fun p e => by cases e; exact closing_phase hc⟩
  | again p =>
    rw [hh] at hm; cases hm
    obtain ⟨h7, h8⟩ := closing_fill (σ := σ) (h6 p hh) h4
    exact ⟨x, rest, by simp [h1], h2, h3, h8, fun _ => h7, by simp⟩
  | againS =>
    rw [hh] at hm; cases hm
    exact h0.send (h5 (.inl (by simp [hh]))) rfl rfl rfl (by simp)

theorem Seen.step {σ σ' : St} {a : Act} (h : Seen σ) (hs : step σ a = .to σ') : Seen σ' := by
  obtain ⟨_, _, he⟩ := step_eff hs
  cases he with
  | main hm =>
    unfold mainStep at hm
    unfold Seen at h
    cases hp : σ.pc <;> rw [hp] at hm h <;> simp only at hm h
    case enter => cases hm; simp [Seen, fill, first, h]
    case enterS => cases hm; simp [Seen, Svc.send, first, h]
    case create => cases hm; simp [Seen, h]
    case noEvent => cases hm; simp [Seen, fill, h, Opened]
    case noEventS =>
      cases hm
      exact ⟨σ.status, [], by simp [Svc.send, h], h.2.2.2, by simp, by simp [Svc.send, h], by simp [Svc.send, h], by simp [Svc.send, h]⟩
    case ready => cases hm; simp [Seen, fill, h, Opened]
    case readyS =>
      cases hm
      exact ⟨σ.status, [], by simp [Svc.send, h], h.2.2.2, by simp, by simp [Svc.send, h], by simp [Svc.send, h], by simp [Svc.send, h]⟩
    case over => cases hm
    case refused => cases hm
    case stop =>
      unfold stopHost at hm
      split at hm <;> cases hm
      exact h.keep rfl rfl rfl rfl (by simp)
    case ask =>
      split at hm <;> cases hm
      · exact h.keep (τ := { σ with pc := .stop }) rfl rfl rfl rfl (by simp)
      · exact h.keep (τ := { σ with pc := .wait }) rfl rfl rfl rfl (by simp)
    case woken =>
      obtain ⟨x, rest, h1, h2, h3, h4, h5, h6⟩ := h
      cases hm
      obtain ⟨h7, h8⟩ := closing_fill (p := .stopped) (σ := σ) (.inr rfl) h4
      exact ⟨x, rest, by simp [h1], h2, h3, h8, fun _ => h7, by simpa using h6⟩
    case wokenS =>
      have h0 := h
      obtain ⟨x, rest, h1, h2, h3, h4, h5, h6⟩ := h
      cases hm
      exact h0.send (h5 (.inr hp)) rfl rfl rfl (by simp [Svc.send])
    all_goals
      try split at hm
      all_goals
        cases hm
        all_goals exact h.keep rfl rfl rfl rfl (by simp)
  | registerFails hp =>
    simp only [Seen, hp] at h
    exact h
  | eventFails hp =>
    simp only [Seen, hp] at h
    exact h
  | control hi hl ha =>
    rename_i s
    have hno : ∀ l, σ.sent = l → l ≠ [] ∧ l ≠ [first] := by
      rintro l rfl
      constructor
      · intro e; rw [e] at hl; cases hl
      · intro e; rw [e] at hl; cases hl; cases ha
    have key : Tail σ → Tail { σ with handler := .enter } := by
      rintro ⟨x, rest, h1, h2, h3, h4, h5, h6⟩
      exact ⟨x, rest, h1, h2, h3, h4, (fun hh => hh.elim (fun e => absurd rfl e.2) (fun e => h5 (.inr e))), by simp⟩
    unfold Seen at h ⊢
    cases hp : σ.pc <;> rw [hp] at h <;> simp only [hp] at h ⊢ <;>
      first
        | exact absurd rfl (hno _ h.1).1
        | exact absurd rfl (hno _ h.1).2
        | (have := key h; simp only [hp] at this; exact this)
  | handler hm =>
    obtain ⟨_, _, hpc, _⟩ := handler_rest hm
    have hni : σ.handler ≠ .idle := by
      intro e; rw [handlerStep, e] at hm; cases hm
    unfold Seen at h ⊢
    rw [hpc]
    cases hp : σ.pc <;> rw [hp] at h <;> simp only at h ⊢ <;>
      first
        | exact absurd h.2.1 hni
        | exact h.handler hm
  | exit _ => exact h
  | host _ _ _ => exact h

theorem seen_init {σ : St} (h : init = .to σ) : Seen σ := by
  unfold init at h
  split at h <;> cases h
  exact ⟨rfl, rfl, rfl⟩

theorem Reachable.seen {σ : St} (h : Reachable σ) : Seen σ := induct (fun _ => seen_init) (fun _ _ _ => Seen.step) h

/-! ## Checkpoints -/

/-- Checkpoints handed out so far are below the counter; a pending status carries the largest of those sent. -/
structure Counted (σ : St) : Prop where
  below : ∀ s ∈ σ.sent, s.checkpoint < σ.next
  cur : σ.status.checkpoint < σ.next
  top : σ.status.checkpoint ≠ 0 → ∀ s ∈ σ.sent, s.checkpoint ≤ σ.status.checkpoint
  sorted : σ.sent.Pairwise (fun s t => t.checkpoint ≠ 0 → s.checkpoint ≤ t.checkpoint)

theorem Counted.fill {σ : St} (h : Counted σ) (p : Phase) : Counted (fill p σ) := by
  unfold Svc.fill
  simp only
  split
  · exact ⟨h.below, by have := h.cur; simp only; omega, by simp, h.sorted⟩
  · refine ⟨fun s hs => Nat.lt_succ_of_lt (h.below s hs), by simp, ?_, h.sorted⟩
    intro _ s hs
    exact Nat.le_of_lt (h.below s hs)

theorem Counted.send {σ : St} (h : Counted σ) : Counted (send σ) := by
  refine ⟨?_, h.cur, ?_, ?_⟩
  · intro s hs
    rcases List.mem_append.1 hs with hs | hs
    · exact h.below s hs
    · rw [List.mem_singleton.1 hs]; exact h.cur
  · intro hn s hs
    rcases List.mem_append.1 hs with hs | hs
    · exact h.top hn s hs
    · rw [List.mem_singleton.1 hs]; exact Nat.le_refl _
  · refine List.pairwise_append.2 ⟨h.sorted, by simp, ?_⟩
    intro s hs t ht hn
    rw [List.mem_singleton.1 ht] at hn ⊢
    exact h.top hn s hs

theorem Counted.step {σ σ' : St} {a : Act} (h : Counted σ) (hs : step σ a = .to σ') : Counted σ' := by
  have keep : ∀ {τ : St} (τ' : St), Counted τ → τ'.sent = τ.sent → τ'.status = τ.status → τ'.next = τ.next → Counted τ' := by
    intro τ τ' h h1 h2 h3
    exact ⟨by rw [h1, h3]; exact h.below, by rw [h2, h3]; exact h.cur, by rw [h1, h2]; exact h.top, by rw [h1]; exact h.sorted⟩
  obtain ⟨_, _, he⟩ := step_eff hs
  cases he with
  | main hm =>
    unfold mainStep at hm
    unfold stopHost at hm
    repeat' split at hm
    all_goals first
      | cases hm
      | skip
    all_goals first
      | exact keep _ (h.fill _) rfl rfl rfl
      | exact keep _ h.send rfl rfl rfl
      | exact keep _ h rfl rfl rfl
  | registerFails hp => exact keep _ h rfl rfl rfl
  | eventFails hp => exact keep _ h rfl rfl rfl
  | control _ _ _ => exact keep _ h rfl rfl rfl
  | handler hm =>
    unfold handlerStep at hm
    split at hm <;> cases hm <;> first
      | exact keep _ (h.fill _) rfl rfl rfl
      | exact keep _ h.send rfl rfl rfl
      | exact keep _ h rfl rfl rfl
  | exit _ => exact keep _ h rfl rfl rfl
  | host _ _ _ => exact keep _ h rfl rfl rfl

theorem counted_init {σ : St} (h : init = .to σ) : Counted σ := by
  unfold init at h
  split at h <;> cases h
  exact ⟨by simp, by simp, by simp, by simp⟩

theorem Reachable.counted {σ : St} (h : Reachable σ) : Counted σ := induct (fun _ => counted_init) (fun _ _ _ => Counted.step) h

end LP.Svc
