import Verif.Lemma.LinkConc
/-!
# Sends made and still to be made by the callback of a link
-/
namespace LP.LinkConc

theorem sent_append (l l' : List Zmq) : sent (l ++ l') = sent l ++ sent l' := List.filterMap_append

/-- The sends that a callback in progress still has to make. -/
def toSend (ptr : Sock → Bool) : BusPc → List Sock
  | .test .serverPub => [.serverPub, .clientPub].filter ptr
  | .want .serverPub => .serverPub :: [.clientPub].filter ptr
  | .send .serverPub => .serverPub :: [.clientPub].filter ptr
  | .unlock .serverPub => [.clientPub].filter ptr
  | .test .clientPub => [.clientPub].filter ptr
  | .want .clientPub => [.clientPub]
  | .send .clientPub => [.clientPub]
  | _ => []

/-- As long as the subscriber is registered the sockets are those that were made. -/
theorem ptr_kept {c0 m0} {σ σ' : St} {a : Act} (hi : Inv c0 m0 σ) (hs : step σ a = some σ')
    (h : σ.registered = true → ∀ s, σ.ptr s = (c0 && m0 s)) : σ'.registered = true → ∀ s, σ'.ptr s = (c0 && m0 s) := by
  cases a with
  | enter => simp only [step] at hs; split at hs <;> cases hs; exact h
  | bus p =>
    simp only [step] at hs; unfold busStep at hs
    repeat' split at hs
    all_goals first | cases hs | skip
    all_goals first | exact h | cases hs
  | worker g =>
    simp only [step] at hs; unfold workerStep at hs
    repeat' split at hs
    all_goals first | cases hs | skip
    all_goals first | exact h | cases hs
  | stop =>
    simp only [step] at hs; repeat' split at hs
    all_goals cases hs
    all_goals exact h
  | deinitialize => simp only [step] at hs; split at hs <;> cases hs; exact h
  | owner =>
    simp only [step] at hs; unfold ownerStep at hs
    split at hs
    case h_7 n ho =>
      intro hr
      cases hs
      have := hi.reg
      rw [ho] at this
      simp only [past] at this
      rw [show σ.registered = true from hr] at this
      cases this
    all_goals (repeat' split at hs)
    all_goals first | cases hs | skip
    all_goals first | exact h | (intro hr; cases hr) | cases hs

theorem Reachable.ptr {c0 m0} {σ : St} (h : Reachable c0 m0 σ) : σ.registered = true → ∀ s, σ.ptr s = (c0 && m0 s) := by
  obtain ⟨as, he⟩ := h
  have key : ∀ (as : List Act) (τ : St), Inv c0 m0 τ → (τ.registered = true → ∀ s, τ.ptr s = (c0 && m0 s)) → exec τ as = some σ →
      (σ.registered = true → ∀ s, σ.ptr s = (c0 && m0 s)) := by
    intro as
    induction as with
    | nil => intro τ _ h he; cases he; exact h
    | cons a as ih =>
      intro τ hi h he
      simp only [exec] at he
      cases h1 : step τ a with
      | none => rw [h1] at he; cases he
      | some τ1 => rw [h1] at he; exact ih τ1 (inv_step hi h1) (ptr_kept hi h1 h) he
  exact key as _ (inv_initial _ _) (fun _ _ => rfl) he

/-- A step other than a new entry of the bus thread keeps what was sent together with what is still to be sent. -/
theorem send_step {c0 m0} {σ σ' : St} {a : Act} (hi : Inv c0 m0 σ) (ha : a ≠ .enter) (hb : σ.bus ≠ .before) (hs : step σ a = some σ') :
    σ'.bus ≠ .before ∧ sent σ'.calls ++ toSend σ'.ptr σ'.bus = sent σ.calls ++ toSend σ.ptr σ.bus := by
  cases a with
  | enter => exact absurd rfl ha
  | bus p =>
    have hok := hi.bus
    unfold BusOk at hok
    simp only [step] at hs; unfold busStep at hs
    cases hbus : σ.bus with
    | before => exact absurd hbus hb
    | away => rw [hbus] at hs; cases hs
    | after => rw [hbus] at hs; cases hs; exact ⟨nofun, by simp [toSend]⟩
    | test s =>
      rw [hbus] at hs hok
      simp only at hs hok
      rcases hok.2 with rfl | rfl
      · split at hs <;> rename_i hp <;> cases hs
        · exact ⟨nofun, by simp [toSend, hp]⟩
        · exact ⟨nofun, by simp [toSend, busNext, hp]⟩
      · split at hs <;> rename_i hp <;> cases hs
        · exact ⟨nofun, by simp [toSend, hp]⟩
        · exact ⟨nofun, by simp [toSend, busNext, hp]⟩
    | want s =>
      rw [hbus] at hs hok
      simp only at hs hok
      split at hs <;> cases hs
      rcases hok.2.1 with rfl | rfl <;> exact ⟨nofun, by simp [toSend]⟩
    | send s =>
      rw [hbus] at hs hok
      simp only at hs hok
      cases hs
      rcases hok.2.1 with rfl | rfl
      · refine ⟨nofun, ?_⟩
        simp only [hok.2.2, if_true, sent_append, toSend]
        simp [sent]
      · refine ⟨nofun, ?_⟩
        simp only [hok.2.2, if_true, sent_append, toSend]
        simp [sent]
    | unlock s =>
      rw [hbus] at hs hok
      simp only at hs hok
      cases hs
      rcases hok.2 with rfl | rfl
      · exact ⟨nofun, by simp [toSend, busNext]⟩
      · exact ⟨nofun, by simp [toSend, busNext]⟩
  | worker g =>
    have hok := hi.work
    simp only [step] at hs; unfold workerStep at hs
    cases hw : σ.worker with
    | receive s =>
      rw [hw] at hs hok
      simp only at hs
      split at hs <;> cases hs
      · refine ⟨hb, ?_⟩
        rcases hok with rfl | rfl <;> simp [sent]
      · exact ⟨hb, rfl⟩
    | gone => rw [hw] at hs; cases hs
    | top => rw [hw] at hs; simp only at hs; split at hs <;> cases hs <;> exact ⟨hb, rfl⟩
    | want s => rw [hw] at hs; simp only at hs; split at hs <;> cases hs; exact ⟨hb, rfl⟩
    | check s => rw [hw] at hs; simp only at hs; split at hs <;> cases hs <;> exact ⟨hb, rfl⟩
    | publish s => rw [hw] at hs; cases hs; exact ⟨hb, rfl⟩
    | unlock s => rw [hw] at hs; cases hs; exact ⟨hb, rfl⟩
  | stop =>
    simp only [step] at hs; repeat' split at hs
    all_goals cases hs
    all_goals exact ⟨hb, rfl⟩
  | deinitialize => simp only [step] at hs; split at hs <;> cases hs; exact ⟨hb, rfl⟩
  | owner =>
    simp only [step] at hs; unfold ownerStep at hs
    split at hs
    case h_7 n ho =>
      cases hs
      refine ⟨hb, ?_⟩
      have hreg := hi.reg
      rw [ho] at hreg
      rcases hi.bus.quiet hreg with h | h | h <;> rw [h] <;> rfl
    case h_6 n ho =>
      split at hs <;> cases hs
      · refine ⟨hb, ?_⟩
        simp [sent]
      · exact ⟨hb, rfl⟩
    case h_8 ho =>
      split at hs <;> cases hs
      refine ⟨hb, ?_⟩
      simp [sent]
    all_goals (repeat' split at hs)
    all_goals first | cases hs | skip
    all_goals first | exact ⟨hb, rfl⟩ | cases hs

theorem send_exec {c0 m0} {σ' : St} : ∀ (as : List Act) (σ : St), Inv c0 m0 σ → .enter ∉ as → σ.bus ≠ .before → exec σ as = some σ' →
    sent σ'.calls ++ toSend σ'.ptr σ'.bus = sent σ.calls ++ toSend σ.ptr σ.bus := by
  intro as
  induction as with
  | nil => intro σ _ _ _ he; cases he; rfl
  | cons a as ih =>
    intro σ hi ha hb he
    simp only [exec] at he
    cases h1 : step σ a with
    | none => rw [h1] at he; cases he
    | some τ =>
      rw [h1] at he
      obtain ⟨k1, k2⟩ := send_step hi (fun e => ha (by simp [e])) hb h1
      exact (ih τ (inv_step hi h1) (fun e => ha (by simp [e])) k1 he).trans k2

/-- Past the link's subscriber the bus thread enters the callback only with the next message. -/
theorem after_exec {σ' : St} : ∀ (as : List Act) (σ : St), σ.bus = .after ∨ σ.bus = .away → .enter ∉ as → exec σ as = some σ' →
    σ'.bus = .after ∨ σ'.bus = .away := by
  intro as
  induction as with
  | nil => intro σ hb _ he; cases he; exact hb
  | cons a as ih =>
    intro σ hb ha he
    simp only [exec] at he
    cases h1 : step σ a with
    | none => rw [h1] at he; cases he
    | some τ =>
      rw [h1] at he
      refine ih τ ?_ (fun e => ha (by simp [e])) he
      clear he ih
      cases a with
      | enter => exact absurd (by simp) ha
      | bus p =>
        simp only [step] at h1; unfold busStep at h1
        rcases hb with hb | hb <;> rw [hb] at h1 <;> cases h1
        exact .inr rfl
      | worker g =>
        simp only [step] at h1; unfold workerStep at h1
        repeat' split at h1
        all_goals first | cases h1 | skip
        all_goals first | exact hb | cases h1
      | stop =>
        simp only [step] at h1; repeat' split at h1
        all_goals cases h1
        all_goals exact hb
      | deinitialize => simp only [step] at h1; split at h1 <;> cases h1; exact hb
      | owner =>
        simp only [step] at h1; unfold ownerStep at h1
        repeat' split at h1
        all_goals first | cases h1 | skip
        all_goals first | exact hb | cases h1

end LP.LinkConc
