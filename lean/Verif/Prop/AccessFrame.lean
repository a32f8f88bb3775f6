import Verif.Prop.Access
/-!
# The lists of accesses are complete

`C124_link` and `C124_service` are about the accesses listed in `Verif.Model.Access`. Here: the steps of the models change and use nothing
but what is listed.
-/
namespace LP.LinkConc

/-- Change one socket pointer of a link. -/
def St.flip (σ : St) (s : Sock) : St := { σ with ptr := fun t => if t = s then !σ.ptr s else σ.ptr t }

/-- Change the context pointer. -/
def St.flipCtx (σ : St) : St := { σ with ctx := !σ.ctx }

/-- The step has changed only the members listed with a write, and has called ZeroMQ only for sockets listed. -/
def Within (acc : List (Mem × Bool)) (σ σ' : St) : Prop :=
  (∀ s, σ'.ptr s ≠ σ.ptr s → (Mem.ptr s, true) ∈ acc) ∧ (σ'.ctx ≠ σ.ctx → (Mem.ctx, true) ∈ acc) ∧
  ∃ l, σ'.calls = σ.calls ++ l ∧ ∀ c ∈ l, ∀ s, c = .use s ∨ c = .useNull s ∨ c = .close s → (Mem.socket s, true) ∈ acc

/-- Whatever a step of a thread of a link changes or calls is listed as written by it. -/
theorem C124_link_writes {σ σ' : St} :
    (∀ p, step σ (.bus p) = some σ' → Within (busAccess σ.bus) σ σ') ∧
    (∀ g, step σ (.worker g) = some σ' → Within (workerAccess σ.worker) σ σ') ∧
    (step σ .owner = some σ' → Within (ownerAccess σ.owner) σ σ') := by
  have none : ∀ {acc : List (Mem × Bool)} {τ : St}, τ.ptr = σ.ptr → τ.ctx = σ.ctx → τ.calls = σ.calls → Within acc σ τ := by
    intro acc τ h1 h2 h3
    exact ⟨fun s h => absurd (by rw [h1]) h, fun h => absurd h2 h, [], by simp [h3], by simp⟩
  have call : ∀ {acc : List (Mem × Bool)} {τ : St} {c : Zmq}, τ.ptr = σ.ptr → τ.ctx = σ.ctx → τ.calls = σ.calls ++ [c] →
      (∀ s, c = .use s ∨ c = .useNull s ∨ c = .close s → (Mem.socket s, true) ∈ acc) → Within acc σ τ := by
    intro acc τ c h1 h2 h3 h4
    refine ⟨fun s h => absurd (by rw [h1]) h, fun h => absurd h2 h, [c], h3, fun d hd => ?_⟩
    rw [List.mem_singleton] at hd
    rw [hd]; exact h4
  refine ⟨fun p h => ?_, fun g h => ?_, fun h => ?_⟩
  · simp only [step, busStep] at h
    cases hb : σ.bus <;> simp only [hb] at h
    case send s =>
      cases h
      refine call rfl rfl rfl (fun t ht => ?_)
      split at ht <;> simp_all [busAccess]
    all_goals
      first
        | (cases h; exact none rfl rfl rfl)
        | (split at h <;> cases h <;> exact none rfl rfl rfl)
        | cases h
  · simp only [step, workerStep] at h
    cases hb : σ.worker <;> simp only [hb] at h
    case receive s =>
      split at h <;> cases h
      · exact call rfl rfl rfl (fun t ht => by simp_all [workerAccess])
      · exact none rfl rfl rfl
    all_goals
      first
        | (cases h; exact none rfl rfl rfl)
        | (split at h <;> cases h <;> exact none rfl rfl rfl)
        | cases h
  · simp only [step, ownerStep] at h
    cases hb : σ.owner <;> simp only [hb] at h
    case close n =>
      split at h <;> cases h
      · exact call rfl rfl rfl (fun t ht => by simp_all [ownerAccess])
      · exact none rfl rfl rfl
    case clear n =>
      cases h
      refine ⟨fun t ht => ?_, fun ht => absurd rfl ht, [], by simp, by simp⟩
      by_cases ho : t = order n
      · simp [ownerAccess, ho]
      · simp [ho] at ht
    case term =>
      split at h <;> cases h
      exact call rfl rfl rfl (fun t ht => by simp at ht)
    case forget =>
      cases h
      exact ⟨fun t ht => absurd rfl ht, fun _ => by simp [ownerAccess], [], by simp, by simp⟩
    all_goals
      first
        | (cases h; exact none rfl rfl rfl)
        | (split at h <;> cases h <;> exact none rfl rfl rfl)
        | cases h

/-- What a step of a thread of a link does depends on no pointer that is not listed as accessed by it. (That `zmq_ctx_term` waits for the
sockets, in the model for the pointers, is not an access of the code.) -/
theorem C124_link_reads (σ : St) :
    (∀ s p, (∀ w, (Mem.ptr s, w) ∉ busAccess σ.bus) → step (σ.flip s) (.bus p) = (step σ (.bus p)).map (·.flip s)) ∧
    (∀ p, step σ.flipCtx (.bus p) = (step σ (.bus p)).map (·.flipCtx)) ∧
    (∀ s g, (∀ w, (Mem.ptr s, w) ∉ workerAccess σ.worker) → step (σ.flip s) (.worker g) = (step σ (.worker g)).map (·.flip s)) ∧
    (∀ g, (∀ w, (Mem.ctx, w) ∉ workerAccess σ.worker) → step σ.flipCtx (.worker g) = (step σ (.worker g)).map (·.flipCtx)) ∧
    (∀ s, σ.owner ≠ .term → (∀ w, (Mem.ptr s, w) ∉ ownerAccess σ.owner) → step (σ.flip s) .owner = (step σ .owner).map (·.flip s)) ∧
    ((∀ w, (Mem.ctx, w) ∉ ownerAccess σ.owner) → step σ.flipCtx .owner = (step σ .owner).map (·.flipCtx)) := by
  refine ⟨fun s p h => ?_, fun p => ?_, fun s g h => ?_, fun g h => ?_, fun s ht h => ?_, fun h => ?_⟩
  · simp only [step, busStep, St.flip]
    cases hb : σ.bus <;> simp_all [busAccess] <;> grind
  · simp only [step, busStep, St.flipCtx]
    cases hb : σ.bus <;> simp_all <;> grind
  · simp only [step, workerStep, St.flip]
    cases hb : σ.worker <;> simp_all [workerAccess] <;> grind
  · simp only [step, workerStep, St.flipCtx]
    cases hb : σ.worker <;> simp_all [workerAccess] <;> grind
  · simp only [step, ownerStep, St.flip]
    cases hb : σ.owner <;> simp_all [ownerAccess] <;> grind
  · simp only [step, ownerStep, St.flipCtx]
    cases hb : σ.owner <;> simp_all [ownerAccess] <;> grind

-- The hypotheses: the owner is clearing the second pointer, the worker is about to receive
example : ∃ σ σ' : St, step σ .owner = some σ' ∧ σ.ptr .serverSub = true ∧ σ'.ptr .serverSub = false ∧
    (∀ w, (Mem.ptr .clientPub, w) ∉ ownerAccess σ.owner) ∧ σ.owner ≠ .term :=
  ⟨{ initial true (fun _ => true) with owner := .clear 1 }, _, rfl, rfl, rfl, by simp [ownerAccess, order], by simp⟩
example : ∃ σ σ' : St, step σ (.worker true) = some σ' ∧ σ'.calls = [.use .clientSub] ∧ (∀ w, (Mem.ctx, w) ∉ workerAccess σ.worker) :=
  ⟨{ initial true (fun _ => true) with worker := .receive .clientSub }, _, rfl, rfl, by simp [workerAccess]⟩

end LP.LinkConc

namespace LP.Svc

/-- Whatever a step of a thread of the service changes in `mStatus` or in the counter is listed as written by it; what `SetServiceStatus`
sends is read. -/
theorem C124_service_writes {σ σ' : St} :
    (step σ .main = .to σ' → (σ'.status ≠ σ.status → (Mem.status, true) ∈ mainAccess σ.pc) ∧
      (σ'.next ≠ σ.next → (Mem.checkpoint, true) ∈ mainAccess σ.pc) ∧ (σ'.sent ≠ σ.sent → (Mem.status, false) ∈ mainAccess σ.pc)) ∧
    (step σ .handler = .to σ' → (σ'.status ≠ σ.status → (Mem.status, true) ∈ handlerAccess σ.handler) ∧
      (σ'.next ≠ σ.next → (Mem.checkpoint, true) ∈ handlerAccess σ.handler) ∧
      (σ'.sent ≠ σ.sent → (Mem.status, false) ∈ handlerAccess σ.handler) ∧ (σ'.event ≠ σ.event → ∃ w, (Mem.event, w) ∈ handlerAccess σ.handler)) := by
  constructor
  · intro h
    simp only [step] at h
    split at h
    · cases h
    · simp only [mainStep] at h
      split at h <;> rename_i hp
      all_goals first
        | (cases h; simp [hp, mainAccess, fillAccess, fill, send]; done)
        | skip
      · split at h <;> cases h
        simp
      · simp only [stopHost] at h
        split at h <;> cases h
        simp
      · split at h <;> cases h
        simp
      all_goals cases h
  · intro h
    simp only [step] at h
    split at h
    · cases h
    · simp only [handlerStep] at h
      split at h <;> rename_i hp
      all_goals first
        | (cases h; simp [hp, handlerAccess, fillAccess, fill, send]; done)
        | skip
      · cases h
      · rename_i p
        cases h
        simp only [hp, handlerAccess, fillAccess, fill]
        split <;> simp

/-- The outcome with the resulting state changed. -/
def R.over (f : St → St) : R → R
  | .to σ => .to (f σ)
  | r => r

@[simp] theorem over_to (f : St → St) (σ : St) : (R.to σ).over f = .to (f σ) := rfl
@[simp] theorem over_no (f : St → St) : R.no.over f = .no := rfl
@[simp] theorem over_ub (f : St → St) : R.ub.over f = .ub := rfl

/-- What a step of a thread of the service does depends neither on `mStatus`, nor on the counter, nor on the event, if they are not listed
as accessed by it. -/
theorem C124_service_reads (σ : St) (x : Status) (n : Nat) (e : Bool) :
    ((∀ w, (Mem.status, w) ∉ mainAccess σ.pc) → step { σ with status := x } .main = (step σ .main).over ({ · with status := x })) ∧
    ((∀ w, (Mem.checkpoint, w) ∉ mainAccess σ.pc) → step { σ with next := n } .main = (step σ .main).over ({ · with next := n })) ∧
    ((∀ w, (Mem.event, w) ∉ mainAccess σ.pc) → step { σ with event := e } .main = (step σ .main).over ({ · with event := e })) ∧
    ((∀ w, (Mem.status, w) ∉ handlerAccess σ.handler) → step { σ with status := x } .handler = (step σ .handler).over ({ · with status := x })) ∧
    ((∀ w, (Mem.checkpoint, w) ∉ handlerAccess σ.handler) → step { σ with next := n } .handler = (step σ .handler).over ({ · with next := n })) ∧
    ((∀ w, (Mem.event, w) ∉ handlerAccess σ.handler) → step { σ with event := e } .handler = (step σ .handler).over ({ · with event := e })) := by
  refine ⟨fun h => ?_, fun h => ?_, fun h => ?_, fun h => ?_, fun h => ?_, fun h => ?_⟩
  all_goals (simp only [step]; split; · rfl)
  · cases hp : σ.pc <;> simp_all [mainStep, mainAccess, fillAccess, fill, send, isStopped, stopHost] <;> (repeat' split) <;> simp_all
  · cases hp : σ.pc <;> simp_all [mainStep, mainAccess, fillAccess, fill, send, isStopped, stopHost] <;> (repeat' split) <;> simp_all
  · cases hp : σ.pc <;> simp_all [mainStep, mainAccess, fillAccess, fill, send, isStopped, stopHost] <;> (repeat' split) <;> simp_all
  · cases hp : σ.handler <;> simp_all [handlerStep, handlerAccess, fillAccess, fill, send] <;> (repeat' split at h) <;> simp_all
  · cases hp : σ.handler <;> simp_all [handlerStep, handlerAccess, fillAccess, fill, send] <;> (repeat' split at h) <;> simp_all
  · cases hp : σ.handler <;> simp_all [handlerStep, handlerAccess, fillAccess, fill, send] <;> (repeat' split) <;> simp_all

-- The hypotheses: the first report of the control handler, which counts
example : ∃ σ σ' : St, Reachable σ ∧ step σ .handler = .to σ' ∧ σ'.next ≠ σ.next := by
  obtain ⟨σ, h, hr, h1, h2, _⟩ := look_to (as := up ++ hostUp ++ stopped.take 1)
    (x := (.wait, .running, false, false, [.startPending, .running])) (by decide +kernel)
  have he : (match play (up ++ hostUp ++ stopped.take 1) with | .to σ => (σ.ended, σ.handler) | _ => (true, .idle)) = (false, .enter) := by
    decide +kernel
  rw [h] at he
  obtain ⟨e1, e2⟩ := Prod.mk.inj he
  refine ⟨σ, { fill .stopPending σ with handler := .enterS }, hr, ?_, by simp [fill]⟩
  have : σ.host.pc ≠ .failed := by rw [h2]; decide
  have e1 : σ.ended = false := e1
  have e2 : σ.handler = .enter := e2
  simp [step, this, e1, handlerStep, e2]

-- The hypotheses: the handler sets the event, whatever `mStatus` and the counter hold; `Main` is woken, whatever they hold
example : (∀ w, (Mem.status, w) ∉ handlerAccess .set) ∧ (∀ w, (Mem.checkpoint, w) ∉ handlerAccess .set) ∧
    (∀ w, (Mem.status, w) ∉ mainAccess .wait) ∧ (∀ w, (Mem.event, w) ∉ mainAccess .woken) := by
  simp [handlerAccess, mainAccess, fillAccess]
example : ∃ σ σ' : St, Reachable σ ∧ σ.pc = .wait ∧ step σ .main = .to σ' ∧ σ'.pc = .woken := by
  obtain ⟨σ, h, hr, h1, h2, _⟩ := look_to (as := up ++ hostUp ++ stopped.take 4)
    (x := (.wait, .running, false, true, [.startPending, .running, .stopPending])) (by decide +kernel)
  have he : (match play (up ++ hostUp ++ stopped.take 4) with | .to σ => (σ.ended, σ.event) | _ => (true, false)) = (false, true) := by
    decide +kernel
  rw [h] at he
  obtain ⟨e1, e2⟩ := Prod.mk.inj he
  have e1 : σ.ended = false := e1
  have e2 : σ.event = true := e2
  have : σ.host.pc ≠ .failed := by rw [h2]; decide
  exact ⟨σ, { σ with pc := .woken }, hr, h1, by simp [step, this, e1, e2, mainStep, show σ.pc = .wait from h1], rfl⟩

end LP.Svc
