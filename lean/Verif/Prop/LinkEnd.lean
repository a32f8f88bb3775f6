import Verif.Lemma.LinkConc
/-!
# A link being shut down while messages flow (C82, C83)
-/
namespace LP.LinkConc

/-- C82: in every interleaving of messages on the bus, messages from the network, `Stop` and `Deinitialize` (with or without
`Stop` before it), no socket is used after it was closed, none is closed twice, none is used through a null pointer, and
nothing happens after the context is terminated. -/
theorem C82_sockets_properly_used {ctx : Bool} {made : Sock → Bool} {σ : St} (h : Reachable ctx made σ) : Proper σ.calls :=
  h.inv.proper

/-- C82: when `Deinitialize` has returned, exactly the sockets that existed have been closed, the context has been
terminated if there was one, and every pointer is null. -/
theorem C82_everything_closed {ctx : Bool} {made : Sock → Bool} {σ : St} (h : Reachable ctx made σ) (hd : σ.owner = .done) :
    (∀ s, Zmq.close s ∈ σ.calls ↔ ctx = true ∧ made s = true) ∧ (Zmq.term ∈ σ.calls ↔ ctx = true) ∧
      (∀ s, σ.ptr s = false) ∧ σ.ctx = false := by
  have hi := h.inv
  have ho := hi.owner
  unfold OwnerOk at ho
  rw [hd] at ho
  refine ⟨?_, ?_, ho.2, ho.1⟩
  · intro s; rw [hi.closed s, ho.2 s]; simp
  · rw [hi.term, hd]; simp [ended]

/-- C82: once `Deinitialize` has removed the subscriber, the callback of the link is not running and never runs again. -/
theorem C82_callback_over {ctx : Bool} {made : Sock → Bool} {σ σ' : St} {as : List Act} (h : Reachable ctx made σ)
    (hr : σ.registered = false) (he : exec σ as = some σ') : ¬ InCallback σ'.bus ∧ σ'.registered = false := by
  have hi := h.inv
  have hkeep : ∀ (as : List Act) (σ : St), Inv ctx made σ → σ.registered = false → exec σ as = some σ' →
      Inv ctx made σ' ∧ σ'.registered = false := by
    intro as
    induction as with
    | nil => intro σ hi hr he; cases he; exact ⟨hi, hr⟩
    | cons a as ih =>
      intro σ hi hr he
      simp only [exec] at he
      cases h1 : step σ a with
      | none => rw [h1] at he; cases he
      | some σ1 =>
        rw [h1] at he
        refine ih σ1 (inv_step hi h1) ?_ he
        clear he ih
        cases a with
        | enter => simp only [step] at h1; split at h1 <;> cases h1; exact hr
        | bus p =>
          simp only [step] at h1; unfold busStep at h1
          repeat' split at h1
          all_goals first | cases h1 | skip
          all_goals first | exact hr | cases h1
        | worker g =>
          simp only [step] at h1; unfold workerStep at h1
          repeat' split at h1
          all_goals first | cases h1 | skip
          all_goals first | exact hr | cases h1
        | stop => simp only [step] at h1; repeat' split at h1
                  all_goals cases h1
                  all_goals exact hr
        | deinitialize => simp only [step] at h1; split at h1 <;> cases h1; exact hr
        | owner =>
          simp only [step] at h1; unfold ownerStep at h1
          repeat' split at h1
          all_goals first | cases h1 | skip
          all_goals first | exact hr | rfl | cases h1
  obtain ⟨hi', hr'⟩ := hkeep as σ hi hr he
  refine ⟨?_, hr'⟩
  rcases hi'.bus.quiet hr' with hb | hb | hb <;> rw [hb] <;> exact id

/-- C83: `Stop` and `Deinitialize` never wait for ever. Whenever the owner is inside one of them, the one thread it waits
for, if any, can run by itself, and after at most eleven of its steps, whatever happens in them, the owner can go on. -/
theorem C83_owner_can_go_on {ctx : Bool} {made : Sock → Bool} {σ : St} (h : Reachable ctx made σ)
    (h1 : σ.owner ≠ .idle) (h2 : σ.owner ≠ .done) (f : Nat → Bool) :
    ∃ n, n ≤ 11 ∧ ∃ σ', (exec σ (busSteps f n) = some σ' ∨ exec σ (workerSteps f n) = some σ') ∧ (step σ' .owner).isSome = true := by
  have hi := h.inv
  have now : (ownerStep σ).isSome = true → ∃ n, n ≤ 11 ∧ ∃ σ', (exec σ (busSteps f n) = some σ' ∨ exec σ (workerSteps f n) = some σ') ∧
      (step σ' .owner).isSome = true := fun hs => ⟨0, Nat.zero_le _, σ, .inl rfl, hs⟩
  have hok := hi.owner
  unfold OwnerOk at hok
  cases ho : σ.owner with
  | idle => exact absurd ho h1
  | done => exact absurd ho h2
  | remove =>
    obtain ⟨n, hn, σ', he, _, hq⟩ := reach_goal Act.bus _ _ (fun σ => busLeft σ.bus) (bus_drains (c0 := ctx) (m0 := made)) 11 σ
      (Nat.le_trans (busLeft_le _) (by omega)) ⟨hi, ho⟩ f
    exact ⟨n, hn, σ', .inl he, hq⟩
  | joining =>
    obtain ⟨n, hn, σ', he, _, hq⟩ := reach_goal Act.worker _ _ (fun σ => workLeft σ.worker) (worker_drains_join (c0 := ctx) (m0 := made)) 11 σ
      (workLeft_le _) ⟨hi, ho⟩ f
    exact ⟨n, hn, σ', .inr he, hq⟩
  | lock k =>
    obtain ⟨n, hn, σ', he, _, hq⟩ := reach_goal Act.worker _ _ (fun σ => workLeft σ.worker) (worker_drains_lock (c0 := ctx) (m0 := made) k) 11 σ
      (workLeft_le _) ⟨hi, ho⟩ f
    exact ⟨n, hn, σ', .inr he, hq⟩
  | context => exact now (by simp [ownerStep, ho])
  | close k => exact now (by simp only [ownerStep, ho]; split <;> rfl)
  | clear k => exact now (by simp [ownerStep, ho])
  | term =>
    rw [ho] at hok; simp only at hok
    exact now (by simp [ownerStep, ho, hok.2])
  | forget => exact now (by simp [ownerStep, ho])
  | unlock k => exact now (by simp [ownerStep, ho])

/-- Steps the owner still has to make in `Deinitialize`. -/
def ownerLeft : OwnPc → Nat
  | .idle => 22
  | .joining => 23
  | .remove => 21
  | .lock n => 16 + (4 - n)
  | .context => 16
  | .close n => 6 + 2 * (4 - n)
  | .clear n => 5 + 2 * (4 - n)
  | .term => 6
  | .forget => 5
  | .unlock n => n
  | .done => 0

theorem owner_less {c0 m0} {σ σ' : St} (hi : Inv c0 m0 σ) (hs : ownerStep σ = some σ') : ownerLeft σ'.owner < ownerLeft σ.owner := by
  have hok := hi.owner
  unfold OwnerOk at hok
  unfold ownerStep at hs
  cases ho : σ.owner with
  | idle => rw [ho] at hs; cases hs
  | done => rw [ho] at hs; cases hs
  | joining => rw [ho] at hs; simp only at hs; split at hs <;> cases hs; simp [ownerLeft]
  | remove => rw [ho] at hs; simp only at hs; split at hs <;> cases hs; simp [ownerLeft]
  | lock n =>
    rw [ho] at hs hok; simp only at hs hok; split at hs <;> cases hs
    by_cases hn : n < 3
    · simp only [if_pos hn, ownerLeft]; omega
    · simp only [if_neg hn, ownerLeft]; omega
  | context =>
    rw [ho] at hs; cases hs
    by_cases hc : σ.ctx = true
    · simp [hc, ownerLeft]
    · simp [hc, ownerLeft]
  | close n =>
    rw [ho] at hs hok; simp only at hs hok; split at hs <;> cases hs
    · simp only [ownerLeft]; omega
    · by_cases hn : n < 3
      · simp only [if_pos hn, ownerLeft]; omega
      · simp only [if_neg hn, ownerLeft]; omega
  | clear n =>
    rw [ho] at hs hok; simp only at hs hok; cases hs
    by_cases hn : n < 3
    · simp only [if_pos hn, ownerLeft]; omega
    · simp only [if_neg hn, ownerLeft]; omega
  | term => rw [ho] at hs; simp only at hs; split at hs <;> cases hs; simp [ownerLeft]
  | forget => rw [ho] at hs; cases hs; simp [ownerLeft]
  | unlock n =>
    rw [ho] at hs hok; simp only at hs hok; cases hs
    by_cases hn : 1 < n
    · simp only [if_pos hn, ownerLeft]; omega
    · simp only [if_neg hn, ownerLeft]; omega

theorem other_owner {σ σ' : St} {a : Act} (ha : a ≠ .owner) (h1 : σ.owner ≠ .idle) (hs : step σ a = some σ') : σ'.owner = σ.owner := by
  cases a with
  | enter => simp only [step] at hs; split at hs <;> cases hs; rfl
  | bus p =>
    simp only [step] at hs; unfold busStep at hs
    repeat' split at hs
    all_goals first | cases hs | skip
    all_goals first | rfl | cases hs
  | worker g =>
    simp only [step] at hs; unfold workerStep at hs
    repeat' split at hs
    all_goals first | cases hs | skip
    all_goals first | rfl | cases hs
  | stop => simp only [step, if_neg h1] at hs; cases hs
  | deinitialize => simp only [step, if_neg h1] at hs; cases hs
  | owner => exact absurd rfl ha

/-- C83: a call of `Deinitialize` takes at most 21 steps of its thread, whatever the other threads do meanwhile. -/
theorem C83_deinitialize_is_bounded {ctx : Bool} {made : Sock → Bool} {σ σ' : St} {as : List Act} (h : Reachable ctx made σ)
    (hr : σ.owner = .remove) (he : exec σ as = some σ') : as.count .owner ≤ 21 := by
  have key : ∀ (as : List Act) (σ : St), Inv ctx made σ → σ.owner ≠ .idle → σ.owner ≠ .joining → exec σ as = some σ' →
      as.count .owner ≤ ownerLeft σ.owner := by
    intro as
    induction as with
    | nil => intro σ _ _ _ _; simp
    | cons a as ih =>
      intro σ hi hn hj he
      simp only [exec] at he
      cases h1 : step σ a with
      | none => rw [h1] at he; cases he
      | some σ1 =>
        rw [h1] at he
        simp only [Option.bind_some] at he
        by_cases ha : a = .owner
        · subst ha
          have hlt := owner_less hi h1
          have hn' : σ1.owner ≠ .idle ∧ σ1.owner ≠ .joining := by
            have h2 : ownerStep σ = some σ1 := h1
            unfold ownerStep at h2
            cases ho : σ.owner <;> rw [ho] at h2 <;> simp only at h2 <;> try contradiction
            all_goals (repeat' split at h2)
            all_goals first | contradiction | skip
            all_goals (cases h2; simp only; repeat' split)
            all_goals simp
          have := ih σ1 (inv_step hi h1) hn'.1 hn'.2 he
          rw [List.count_cons_self]; omega
        · have ho := other_owner ha hn h1
          have := ih σ1 (inv_step hi h1) (by rw [ho]; exact hn) (by rw [ho]; exact hj) he
          rw [ho] at this
          rw [List.count_cons_of_ne ha]; exact this
  have := key as σ h.inv (by rw [hr]; decide) (by rw [hr]; decide) he
  rw [hr] at this; exact this

/-- A link with both roles that is shut down without `Stop`, while the bus thread is in its callback and the worker inside
an iteration: `Deinitialize` waits for the callback, then for the worker, and closes all four sockets. -/
example : ∃ σ, Reachable true (fun _ => true) σ ∧ σ.owner = .done ∧ σ.worker ≠ .gone ∧
    σ.calls = [.use .serverPub, .use .clientPub, .use .serverSub, .close .serverPub, .close .serverSub, .close .clientPub,
      .close .clientSub, .term] := by
  refine ⟨_, ⟨[.enter, .bus true, .worker true, .worker true, .worker true, .deinitialize, .bus true, .bus true, .bus true,
    .bus true, .bus true, .bus true, .bus true, .bus true, .bus true, .owner, .owner, .worker true, .worker true, .worker true,
    .enter, .bus true, .owner, .owner, .owner, .owner, .owner, .owner, .owner, .owner, .owner, .owner, .owner, .owner, .owner, .owner,
    .owner, .owner, .owner, .owner], rfl⟩, ?_, ?_, ?_⟩ <;> decide

/-- While the bus thread is in the callback, `Deinitialize` has to wait, and the callback can be finished. -/
example : ∃ σ, Reachable true (fun _ => true) σ ∧ σ.owner = .remove ∧ step σ .owner = none ∧ InCallback σ.bus := by
  refine ⟨_, ⟨[.enter, .bus true, .deinitialize], rfl⟩, rfl, rfl, trivial⟩

end LP.LinkConc
