import Verif.Lemma.LinkConc
import Verif.Prop.Service
import Verif.Spec.Access
/-!
# C124: data races outside the bus layer
-/
namespace LP.LinkConc

theorem past_access {p : OwnPc} (h : past p = false) : ownerAccess p = [] := by
  cases p <;> first | rfl | simp [past] at h

theorem holds_all {p : OwnPc} (h : ownerAccess p ≠ []) (s : Sock) : ownerHolds s p = true := by
  have hp : position s < 4 := by cases s <;> decide
  cases p <;> simp [ownerAccess] at h <;> simp [ownerHolds, ownerHeld, hp]

theorem worker_access {p : WorkPc} {m : Mem} {w : Bool} (h : (m, w) ∈ workerAccess p) : ∃ s, workerHolds s p = true := by
  cases p <;> simp [workerAccess] at h
  · rename_i s; exact ⟨s, by simp [workerHolds]⟩
  · rename_i s; exact ⟨s, by simp [workerHolds]⟩

/-- In every interleaving of messages on the bus, messages from the network, `Stop` and `Deinitialize` no two threads ever are about to
make conflicting accesses to a socket pointer, the context pointer or a socket. -/
theorem C124_link {ctx : Bool} {made : Sock → Bool} {σ : St} (h : Reachable ctx made σ) (m : Mem) : ¬ Races m σ := by
  have hi := h.inv
  rintro (⟨u, v, hu, hv, _⟩ | ⟨u, v, hu, hv, _⟩ | ⟨u, v, hu, hv, _⟩)
  · have hb := hi.bus
    have hw := hi.work
    unfold BusOk at hb
    cases h1 : σ.bus <;> rw [h1] at hu hb <;> simp [busAccess] at hu hb <;>
      cases h2 : σ.worker <;> rw [h2] at hv hw <;> simp [workerAccess, WorkOk] at hv hw <;> grind
  · have hr : σ.registered = true := by
      have hb := hi.bus
      unfold BusOk at hb
      cases h1 : σ.bus <;> rw [h1] at hu hb <;> simp [busAccess] at hu hb <;> exact hb.1
    rw [past_access (not_past hi hr)] at hv
    cases hv
  · obtain ⟨s, hs⟩ := worker_access hu
    have := hi.excl s (holds_all (by intro e; rw [e] at hv; cases hv) s)
    rw [hs] at this; cases this

/-- The threads do come close: the owner is about to clear a pointer that the callback has just used and the worker waits for another. -/
example : ∃ σ, Reachable true (fun _ => true) σ ∧ σ.owner = .clear 0 ∧ σ.worker = .want .serverSub ∧ σ.bus = .before := by
  refine ⟨_, ⟨[.enter, .bus true, .worker true, .deinitialize, .bus true, .bus true, .bus true,
    .bus true, .bus true, .bus true, .bus true, .bus true, .bus true, .owner, .owner,
    .enter, .owner, .owner, .owner, .owner, .owner], rfl⟩, ?_, ?_, ?_⟩ <;> decide

end LP.LinkConc

namespace LP.Svc

/-- `Main` has not yet reported RUNNING. -/
def early : Pc → Bool
  | .enter => true
  | .enterS => true
  | .create => true
  | .noEvent => true
  | .noEventS => true
  | .ready => true
  | .readyS => true
  | _ => false

/-- Until then there is no control; and what follows the wait follows the event. -/
structure Order (σ : St) : Prop where
  early : early σ.pc = true → σ.handler = .idle ∧ ∀ s ∈ σ.sent, s.accepts = false
  first : σ.pc = .enterS → σ.status.accepts = false
  woken : σ.pc = .woken ∨ σ.pc = .wokenS → σ.event = true

theorem Order.step {σ σ' : St} {a : Act} (h : Order σ) (hs : step σ a = .to σ') : Order σ' := by
  obtain ⟨_, _, he⟩ := step_eff hs
  cases he with
  | main hm =>
    unfold mainStep at hm
    cases hp : σ.pc <;> rw [hp] at hm <;> simp only at hm
    case enter =>
      cases hm
      refine ⟨fun _ => ?_, fun _ => ?_, fun e => by simp at e⟩
      · have := h.early (by rw [hp]; rfl); simpa using this
      · simp [fill]
    case enterS =>
      cases hm
      refine ⟨fun _ => ?_, fun e => by simp at e, fun e => by simp at e⟩
      have h1 := h.early (by rw [hp]; rfl)
      refine ⟨h1.1, ?_⟩
      intro s hs
      simp only [send, List.mem_append, List.mem_singleton] at hs
      rcases hs with hs | rfl
      · exact h1.2 s hs
      · exact h.first hp
    case create => cases hm; exact ⟨fun _ => h.early (by rw [hp]; rfl), fun e => by simp at e, fun e => by simp at e⟩
    case noEvent =>
      cases hm
      refine ⟨fun _ => ?_, fun e => by simp at e, fun e => by simp at e⟩
      have := h.early (by rw [hp]; rfl); simpa using this
    case ready =>
      cases hm
      refine ⟨fun _ => ?_, fun e => by simp at e, fun e => by simp at e⟩
      have := h.early (by rw [hp]; rfl); simpa using this
    case ask => cases hm; refine ⟨fun e => ?_, fun e => ?_, fun e => ?_⟩ <;> (dsimp only at e; split at e <;> simp [Svc.early] at e)
    case wait =>
      split at hm
      · rename_i hev
        cases hm; exact ⟨fun e => by simp [Svc.early] at e, fun e => by simp at e, fun _ => hev⟩
      · cases hm
    case woken =>
      cases hm
      exact ⟨fun e => by simp [Svc.early] at e, fun e => by simp at e, fun _ => by simpa using h.woken (.inl hp)⟩
    case stop =>
      simp only [stopHost] at hm
      split at hm <;> cases hm
      exact ⟨fun e => by simp [Svc.early] at e, fun e => by simp at e, fun e => by simp at e⟩
    case join =>
      split at hm <;> cases hm
      exact ⟨fun e => by simp [Svc.early] at e, fun e => by simp at e, fun e => by simp at e⟩
    case over => cases hm
    case refused => cases hm
    all_goals
      cases hm
      exact ⟨fun e => by simp [Svc.early] at e, fun e => by simp at e, fun e => by simp at e⟩
  | registerFails hp => exact ⟨fun _ => h.early (by rw [hp]; rfl), fun e => by simp at e, fun e => by simp at e⟩
  | eventFails hp => exact ⟨fun _ => h.early (by rw [hp]; rfl), fun e => by simp at e, fun e => by simp at e⟩
  | control hi hl ha =>
    refine ⟨fun e => ?_, h.first, h.woken⟩
    have := (h.early e).2 _ (List.mem_of_getLast? hl)
    rw [this] at ha; cases ha
  | handler hh =>
    obtain ⟨r1, r2, r3, r4⟩ := handler_rest hh
    have hn : Svc.early σ.pc = false := by
      cases he : Svc.early σ.pc with
      | false => rfl
      | true => rw [handlerStep, (h.early he).1] at hh; cases hh
    have hev : σ.event = true → σ'.event = true := by
      intro e
      unfold handlerStep at hh
      split at hh <;> cases hh <;> simp [send, e]
    refine ⟨fun e => ?_, fun e => ?_, fun e => ?_⟩
    · rw [r3, hn] at e; cases e
    · rw [r3] at e; rw [e] at hn; cases hn
    · rw [r3] at e; exact hev (h.woken e)
  | exit hi => exact ⟨h.early, h.first, h.woken⟩
  | host _ _ _ => exact ⟨h.early, h.first, h.woken⟩

theorem Reachable.order {σ : St} (h : Reachable σ) : Order σ := by
  refine induct (fun σ hi => ?_) (fun _ _ _ => Order.step) h
  unfold init at hi
  split at hi <;> cases hi
  exact ⟨fun _ => ⟨rfl, fun s hs => by cases hs⟩, fun e => by simp at e, fun e => by simp at e⟩

theorem mem_fill {p : Phase} {m : Mem} {u : Bool} (h : (m, u) ∈ fillAccess p) : (m = .status ∨ m = .checkpoint) ∧ u = true := by
  unfold fillAccess at h
  split at h <;> simp at h <;> grind

theorem host_mem {p : Proc.Pc} {m : Mem} {u : Bool} (h : (m, u) ∈ hostAccess p) : m = .rootBus ∧ (u = true → p = .unloaded) := by
  cases p <;> simp [hostAccess] at h <;> simp [h]

/-- The handle of the event and the counter of checkpoints are never raced on; `mStatus` only after the control handler has set the event,
between the end of the wait and the report of STOPPED; `mRootBus` only if the host is ending when `Init` calls `Stop`. -/
theorem C124_service {σ : St} (h : Reachable σ) (m : Mem) (hr : Races m σ) :
    (m = .status ∧ σ.event = true ∧ (σ.pc = .woken ∨ σ.pc = .wokenS)) ∨ (m = .rootBus ∧ σ.pc = .stop ∧ σ.host.pc = .unloaded) := by
  have ho := h.order
  rcases hr with ⟨u, v, hu, hv, hw⟩ | ⟨u, v, hu, hv, hw⟩ | ⟨u, v, hu, hv, hw⟩
  · left
    have hn : early σ.pc = false := by
      cases he : early σ.pc with
      | false => rfl
      | true => rw [(ho.early he).1] at hv; cases hv
    cases hp : σ.pc <;> rw [hp] at hu hn <;> simp [mainAccess, early] at hu hn
    case wait =>
      obtain ⟨rfl, rfl⟩ := hu
      cases hh : σ.handler <;> rw [hh] at hv <;> simp [handlerAccess] at hv
      · have := mem_fill hv; simp at this
      · simp [hv] at hw
      · have := mem_fill hv; simp at this
    case woken =>
      simp [fillAccess] at hu
      exact ⟨hu.1, ho.woken (.inl hp), .inl rfl⟩
    case wokenS => exact ⟨hu.1, ho.woken (.inr hp), .inr rfl⟩
    case stop =>
      obtain ⟨rfl, rfl⟩ := hu
      cases hh : σ.handler <;> rw [hh] at hv <;> simp [handlerAccess] at hv <;> (have := mem_fill hv; simp at this)
  · right
    obtain ⟨rfl, h2⟩ := host_mem hv
    have hs : σ.pc = .stop ∧ u = false := by
      cases hp : σ.pc <;> rw [hp] at hu <;> simp [mainAccess] at hu
      all_goals first | exact ⟨rfl, hu⟩ | (have := mem_fill hu; simp at this)
    refine ⟨rfl, hs.1, h2 ?_⟩
    rw [hs.2] at hw; simpa using hw
  · obtain ⟨rfl, _⟩ := host_mem hv
    exfalso
    cases hh : σ.handler <;> rw [hh] at hu <;> simp [handlerAccess] at hu <;> (have := mem_fill hu; simp at this)

/-- Every stop control can end in that race: from the moment the handler is about to set the event it takes two steps. -/
theorem C124_service_raced {σ : St} (hf : σ.host.pc ≠ .failed) (he : σ.ended = false) (hp : σ.pc = .wait)
    (hh : σ.handler = .set) : ∃ σ', exec σ [.handler, .main] = .to σ' ∧ Races .status σ' := by
  refine ⟨{ σ with event := true, handler := .read, pc := .woken }, ?_, .inl ⟨true, false, ?_, ?_, .inl rfl⟩⟩
  · simp [exec, step, hf, he, handlerStep, hh, mainStep, hp]
  · simp [mainAccess, fillAccess]
  · simp [handlerAccess]

/-- And so can a stop control that meets a host ending by itself. -/
theorem C124_service_raced_bus : ∃ σ, Reachable σ ∧ Races .rootBus σ := by
  obtain ⟨σ, h, hr, h1, h2, _⟩ := look_to (as := up ++ (hostUp ++ [.host (.bus (.stop 0)), .host (.bus (.run .go))] ++
      List.replicate 2 (.host .main)) ++ stopped)
    (x := (.stop, .unloaded, true, true, [.startPending, .running, .stopPending, .stopPending, .stopped])) (by decide +kernel)
  exact ⟨σ, hr, .inr (.inl ⟨false, true, by simp [h1, mainAccess], by simp [h2, hostAccess], .inr rfl⟩)⟩

/-- Before `Init` has called `Stop` the host has not ended. -/
structure Alone (σ : St) : Prop where
  host : HostOk σ
  alive : σ.pc ≠ .join → σ.pc ≠ .over → NotYet σ ∨ σ.host.pc = .failed ∨
    (σ.host.pc = .running ∧ ∃ b, σ.host.bus = some b ∧ (b.w.bus 0).running = true)

theorem Alone.step {σ σ' : St} {a : Act} (hq : a ≠ .host (.bus (.stop 0))) (h : Alone σ) (hs : step σ a = .to σ') : Alone σ' := by
  have hh := h.host.step hs
  obtain ⟨hf, _, he⟩ := step_eff hs
  cases he with
  | main hm =>
    refine ⟨hh, fun h1 h2 => ?_⟩
    have key : σ.pc ≠ .join → σ.pc ≠ .over → σ'.host = σ.host → NotYet σ' ∨ σ'.host.pc = .failed ∨
        (σ'.host.pc = .running ∧ ∃ b, σ'.host.bus = some b ∧ (b.w.bus 0).running = true) := by
      intro k1 k2 e
      simp only [NotYet, e]; exact h.alive k1 k2
    unfold mainStep at hm
    cases hp : σ.pc <;> rw [hp] at hm key <;> simp only at hm
    case stop =>
      simp only [stopHost] at hm
      split at hm <;> cases hm
      exact absurd rfl h1
    case join => split at hm <;> cases hm; exact absurd rfl h2
    case over => cases hm
    case refused => cases hm
    case wait => split at hm <;> cases hm; exact key (by decide) (by decide) rfl
    all_goals
      cases hm
      exact key (by decide) (by decide) (by simp [send])
  | registerFails hp => exact ⟨hh, fun _ _ => h.alive (by rw [hp]; decide) (by rw [hp]; decide)⟩
  | eventFails hp => exact ⟨hh, fun _ _ => h.alive (by rw [hp]; decide) (by rw [hp]; decide)⟩
  | control _ _ _ => exact ⟨hh, h.alive⟩
  | handler hm =>
    obtain ⟨h1, _, h3, _⟩ := handler_rest hm
    exact ⟨hh, fun k1 k2 => by rw [h3] at k1 k2; simp only [NotYet, h1]; exact h.alive k1 k2⟩
  | exit _ => exact ⟨hh, h.alive⟩
  | host hst hsig _ =>
    exact ⟨hh, fun k1 k2 => deaf_host h.host.reach hf hsig (fun e => hq (by rw [e])) (h.alive k1 k2) hst⟩

/-- As long as only `Init` stops the root bus, `mRootBus` is not raced on. -/
theorem C124_service_alone {σ0 σ : St} {as : List Act} (hi : init = .to σ0) (hn : NobodyElse as) (he : exec σ0 as = .to σ) :
    ¬ Races .rootBus σ := by
  intro hr
  have h0 : Alone σ0 := by
    have hk := hostOk_init hi
    refine ⟨hk, fun _ _ => .inl (.inl ?_)⟩
    unfold init at hi
    split at hi <;> cases hi
    rename_i hs _ _
    simp only [Proc.step, Proc.mainStep, Proc.init] at hs
    split at hs <;> cases hs; rfl
  have h1 := preserved (P := Alone) (Q := fun a => a ≠ .host (.bus (.stop 0))) (fun _ _ _ => Alone.step) hn h0 he
  rcases C124_service ⟨σ0, as, hi, he⟩ _ hr with ⟨h, _⟩ | ⟨_, h2, h3⟩
  · cases h
  · rcases h1.alive (by rw [h2]; decide) (by rw [h2]; decide) with (h | h | h | h) | h | ⟨h, _⟩ <;> rw [h3] at h <;> cases h

/-- Such an execution, up to the end of the service. -/
example : ∃ σ0 σ, init = .to σ0 ∧ exec σ0 (up ++ hostUp ++ stopped ++ [.main, .host (.bus (.run .go))] ++ List.replicate 4 (.host .main)) = .to σ ∧
    σ.host.pc = .finished := by
  obtain ⟨σ, h, _, h1, h2, _⟩ := look_to (as := up ++ hostUp ++ stopped ++ [.main, .host (.bus (.run .go))] ++ List.replicate 4 (.host .main))
    (x := (.join, .finished, true, true, [.startPending, .running, .stopPending, .stopPending, .stopped])) (by decide +kernel)
  unfold play at h
  cases hi : init with
  | no => rw [hi] at h; cases h
  | ub => rw [hi] at h; cases h
  | to σ0 => rw [hi] at h; exact ⟨σ0, σ, rfl, h, h2⟩

/-- Such a moment, with a running host. -/
example : ∃ σ, Reachable σ ∧ σ.host.pc ≠ .failed ∧ σ.ended = false ∧ σ.pc = .wait ∧ σ.handler = .set := by
  obtain ⟨σ, h, hr, h1, h2, _⟩ := look_to (as := up ++ hostUp ++ stopped.take 3)
    (x := (.wait, .running, false, false, [.startPending, .running, .stopPending])) (by decide +kernel)
  have he : (match play (up ++ hostUp ++ stopped.take 3) with | .to σ => (σ.ended, σ.handler) | _ => (true, .idle)) = (false, .set) := by
    decide +kernel
  rw [h] at he
  exact ⟨σ, hr, by rw [h2]; decide, (Prod.mk.inj he).1, h1, (Prod.mk.inj he).2⟩

end LP.Svc
