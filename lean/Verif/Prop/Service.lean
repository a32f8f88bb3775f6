import Verif.Lemma.ServiceStatus
/-!
# The Windows service (C88 - C90)
-/
namespace LP.Svc

/-! ## C88: the stop control and the start of the host -/

/-- The host after a `Stop` that came too early, as long as nobody else stops the root. -/
structure Deaf (σ : St) : Prop where
  host : HostOk σ
  pc : σ.pc = .join
  alive : NotYet σ ∨ σ.host.pc = .failed ∨ (σ.host.pc = .running ∧ ∃ b, σ.host.bus = some b ∧ (b.w.bus 0).running = true)

theorem deaf_host {s s' : Proc.St} {a : Proc.Act} (hr : Proc.Reachable s) (hf : s.pc ≠ .failed) (hsig : a ≠ .signal)
    (hst0 : a ≠ .bus (.stop 0))
    (h : (s.pc = .made ∨ s.pc = .setup ∨ s.pc = .config ∨ s.pc = .starting) ∨ s.pc = .failed ∨
      (s.pc = .running ∧ ∃ b, s.bus = some b ∧ (b.w.bus 0).running = true))
    (hs : Proc.step s a = .to s') :
    (s'.pc = .made ∨ s'.pc = .setup ∨ s'.pc = .config ∨ s'.pc = .starting) ∨ s'.pc = .failed ∨
      (s'.pc = .running ∧ ∃ b, s'.bus = some b ∧ (b.w.bus 0).running = true) := by
  cases a with
  | signal => exact absurd rfl hsig
  | raise =>
    simp only [Proc.step, Proc.raiseStep] at hs
    split at hs <;> cases hs <;> exact .inr (.inl rfl)
  | main =>
    simp only [Proc.step, Proc.mainStep] at hs
    rcases h with (h | h | h | h) | h | ⟨h, b, hb, hrun⟩ <;> rw [h] at hs <;> simp only at hs
    · cases hs; exact .inl (.inr (.inl rfl))
    · cases hs; exact .inl (.inr (.inr (.inl rfl)))
    · cases hs; exact .inl (.inr (.inr (.inr rfl)))
    · cases hb : s.bus with
      | none => rw [hb] at hs; cases hs
      | some b =>
        rw [hb] at hs; simp only at hs
        cases hst : Bus.step b .start with
        | none => rw [hst] at hs; cases hs
        | some b' =>
          rw [hst] at hs; cases hs
          refine .inr (.inr ⟨rfl, b', rfl, ?_⟩)
          simp only [Bus.step] at hst
          split at hst <;> cases hst
          simp [Bus.setRunning, Bus.World.setBus]
    · exact absurd h hf
    · rw [hb] at hs; simp only at hs
      split at hs <;> cases hs
      rename_i hph
      have := hr.good.left b hb h hph
      rw [hrun] at this; cases this
  | bus x =>
    rcases bus_pc hs with hpc | ⟨_, hpc⟩
    · rw [hpc]
      rcases h with h | h | ⟨h, b, hb, hrun⟩
      · exact .inl h
      · exact .inr (.inl h)
      · refine .inr (.inr ⟨h, ?_⟩)
        simp only [Proc.step, Proc.busStep, hb] at hs
        have key : ∀ b', x ≠ .start → Bus.step b x = some b' → (b'.w.bus 0).running = true := by
          intro b' h1 h2
          rw [Bus.root_running (hr.good.reach b hb).inv h1 (fun e => hst0 (by rw [e])) h2]
          exact hrun
        cases x with
        | start => cases hs
        | run c =>
          simp only at hs
          split at hs <;> try contradiction
          split at hs <;> cases hs
          exact ⟨_, rfl, key _ (by simp) (by assumption)⟩
        | _ =>
          simp only at hs
          split at hs <;> cases hs
          exact ⟨_, rfl, key _ (by simp) (by assumption)⟩
    · exact .inr (.inl hpc)

theorem Deaf.step {σ σ' : St} {a : Act} (hq : a ≠ .host (.bus (.stop 0))) (h : Deaf σ) (hs : step σ a = .to σ') : Deaf σ' := by
  have hh := h.host.step hs
  obtain ⟨hf, _, he⟩ := step_eff hs
  cases he with
  | main hm =>
    exfalso
    simp only [mainStep, h.pc] at hm
    split at hm
    · rename_i hfin
      rcases h.alive with (h | h | h | h) | h | ⟨h, _⟩ <;> rw [hfin] at h <;> cases h
    · cases hm
  | registerFails hp => rw [h.pc] at hp; cases hp
  | eventFails hp => rw [h.pc] at hp; cases hp
  | control _ _ _ => exact ⟨hh, h.pc, h.alive⟩
  | handler hm =>
    obtain ⟨h1, _, h3, _⟩ := handler_rest hm
    exact ⟨hh, by rw [h3]; exact h.pc, by simp only [NotYet, h1]; exact h.alive⟩
  | exit _ => exact ⟨hh, h.pc, h.alive⟩
  | host hst hsig _ => exact ⟨hh, h.pc, deaf_host h.host.reach hf hsig (fun e => hq (by rw [e])) h.alive hst⟩

/-- A stop control that `Init` acts on before the host has entered `mRootBus->Start()` is lost: `Stop` is called, is well
defined, and afterwards, unless somebody else stops the root bus, `Init` stays in `join` for ever. -/
theorem C88_lost {σ : St} (h : Reachable σ) (hp : σ.pc = .stop) (hy : NotYet σ) (he : σ.ended = false) :
    ∃ τ, step σ .main = .to τ ∧ ∀ as υ, NobodyElse as → exec τ as = .to υ → υ.pc = .join := by
  have hb : σ.host.bus ≠ none := by
    intro e
    have := h.hasBus.1 e
    rcases hy with h | h | h | h <;> rw [h] at this <;> simp at this
  obtain ⟨b, hb⟩ := Option.ne_none_iff_exists'.1 hb
  obtain ⟨b', _, _, h3⟩ := Proc.C65_defined h.host.reach hb
  have hf : σ.host.pc ≠ .failed := by rcases hy with h | h | h | h <;> rw [h] <;> decide
  have hst : step σ .main = .to { σ with host := { σ.host with bus := some b' }, pc := .join } := by
    simp only [Proc.step] at h3
    simp [step, hf, he, mainStep, hp, stopHost, h3]
  refine ⟨_, hst, fun as υ hn hx => ?_⟩
  have hd : Deaf { σ with host := { σ.host with bus := some b' }, pc := .join } :=
    ⟨(h.step hst).host, rfl, .inl hy⟩
  exact (preserved (P := Deaf) (Q := fun a => a ≠ .host (.bus (.stop 0))) (fun _ _ _ => Deaf.step) hn hd hx).pc

theorem host_run {σ : St} {a : Proc.Act} {s : Proc.St} (hf : σ.host.pc ≠ .failed) (he : σ.ended = false) (hsig : a ≠ .signal)
    (hc : (∃ x, a = .bus x) ∨ (σ.started = true ∧ σ.host.pc ≠ .finished)) (hs : Proc.step σ.host a = .to s) :
    step σ (.host a) = .to { σ with host := s } := by
  simp only [step, hf, he, Bool.false_eq_true, or_self, if_false, hostStep, hs]
  cases a with
  | signal => exact absurd rfl hsig
  | bus x => rfl
  | main => rw [if_pos (hc.resolve_left (by simp))]
  | raise => rw [if_pos (hc.resolve_left (by simp))]

theorem host_runs {σ : St} {b b' : Bus.St} {n : Nat} (hp : σ.host.pc = .running) (hb : σ.host.bus = some b) (he : σ.ended = false)
    (hx : Bus.exec b (List.replicate n (.run .go)) = some b') :
    exec σ (List.replicate n (.host (.bus (.run .go)))) = .to { σ with host := { σ.host with bus := some b' } } := by
  induction n generalizing σ b with
  | zero =>
    cases hx
    obtain ⟨⟨pc, r, bb⟩, _⟩ := σ
    simp only at hb; subst hb; rfl
  | succ n ih =>
    rw [List.replicate_succ, Bus.exec] at hx
    rw [List.replicate_succ, exec]
    cases hs : Bus.step b (.run .go) with
    | none => rw [hs] at hx; cases hx
    | some b1 =>
      rw [hs] at hx
      have hst : Proc.step σ.host (.bus (.run .go)) = .to { σ.host with bus := some b1 } := by
        simp only [Proc.step, Proc.busStep, hb, hp, if_true, hs]
        rw [if_neg (by decide)]
      rw [host_run (by rw [hp]; decide) he (by simp) (.inl ⟨_, rfl⟩) hst]
      exact ih (σ := { σ with host := { σ.host with bus := some b1 } }) hp rfl he hx

/-- A stop control that `Init` acts on while the host is inside `mRootBus->Start()` works: `Stop` is called, and with
nothing but the host's own steps `Start` returns, `join` ends and `Main` returns. -/
theorem C88_works {σ : St} (h : Reachable σ) (hp : σ.pc = .stop) (hr : σ.host.pc = .running) (he : σ.ended = false) :
    ∃ n τ, exec σ (.main :: List.replicate n (.host (.bus (.run .go))) ++ List.replicate 4 (.host .main) ++ [.main]) = .to τ ∧
      τ.pc = .over ∧ τ.host.pc = .finished ∧ τ.sent = σ.sent := by
  obtain ⟨b, hb⟩ : ∃ b, σ.host.bus = some b := Option.ne_none_iff_exists'.1 (h.host.reach.good.has (.inl hr))
  obtain ⟨b1, h1, h2, h3⟩ := Proc.C65_defined h.host.reach hb
  obtain ⟨n, b2, h4, h5⟩ := Bus.C33_exits b1 (Proc.bus_step_reach (h.host.reach.good.reach b hb) h1) h2
  have hst : step σ .main = .to { σ with host := { σ.host with bus := some b1 }, pc := .join } := by
    simp only [Proc.step] at h3
    simp [step, hr, he, mainStep, hp, stopHost, h3]
  have hsd : σ.started = true := h.host.late (by rw [hp]; rfl)
  refine ⟨n, { σ with host := ⟨.finished, .running, none⟩, pc := .over }, ?_, rfl, rfl, rfl⟩
  rw [List.cons_append, List.cons_append, exec, hst]
  simp only
  rw [List.append_assoc, exec_append, host_runs (σ := { σ with host := { σ.host with bus := some b1 }, pc := .join }) (b := b1) (b' := b2) hr rfl he h4]
  simp [List.replicate, exec, step, hr, he, hostStep, hsd, Proc.step, Proc.mainStep, h5, mainStep]

/-! ## C89: the host ends by itself -/

/-- A stop control is never refused while the service waits, and it makes the service act: the handler and `Init` get to
the call of `Stop` by their own steps, whatever the host does meanwhile not being needed. -/
theorem C88_acts {σ : St} (h : Reachable σ) (hp : σ.pc = .wait) (hi : σ.handler = .idle) (hf : σ.host.pc ≠ .failed)
    (he : σ.ended = false) :
    ∃ τ, exec σ (.control :: List.replicate 6 .handler ++ List.replicate 3 .main) = .to τ ∧ τ.pc = .stop ∧ τ.host = σ.host ∧
      τ.ended = false ∧ τ.handler = .idle := by
  have ht : Tail σ := by have := h.seen; unfold Seen at this; rw [hp] at this; exact this
  obtain ⟨x, rest, e1, e2, e3, _⟩ := ht
  obtain ⟨s, hs, ha⟩ : ∃ s, σ.sent.getLast? = some s ∧ s.accepts = true := by
    rw [e1]
    cases e : (x :: rest).getLast? with
    | none => simp at e
    | some s =>
      refine ⟨s, by rw [List.getLast?_cons_cons]; exact e, ?_⟩
      rcases List.mem_cons.1 (List.mem_of_getLast? e) with e | e
      · rw [e]; exact e2.1
      · exact (e3 s e).1
  refine ⟨{ σ with pc := .stop, handler := .idle, event := true, next := σ.next + 2, status := ⟨.stopped, true, 0⟩,
                   sent := σ.sent ++ [⟨.stopPending, true, σ.next⟩, ⟨.stopPending, true, σ.next + 1⟩, ⟨.stopped, true, 0⟩] },
    ?_, rfl, rfl, he, rfl⟩
  simp [exec, step, hf, he, control, hi, hs, ha, handlerStep, List.replicate, mainStep, hp, fill, send]

/-- Once `LampPost::Start` has released the root bus, the `Stop` that `Init` calls is undefined. -/
theorem C89_undefined {σ : St} (h : Reachable σ) (hh : σ.host.pc = .released ∨ σ.host.pc = .finished) (hp : σ.pc = .stop)
    (he : σ.ended = false) : step σ .main = .ub := by
  have hf : σ.host.pc ≠ .failed := by rcases hh with h | h <;> rw [h] <;> decide
  have := Proc.C65_undefined h.host.reach (.inr hh)
  simp only [Proc.step] at this
  simp [step, hf, he, mainStep, hp, stopHost, this]

/-- `Init` has not got past its call of `Stop`. -/
def Before (σ : St) : Prop := σ.pc = .ask ∨ σ.pc = .wait ∨ σ.pc = .woken ∨ σ.pc = .wokenS ∨ σ.pc = .stop

/-- If `LampPost::Start` has returned by itself, `Main` never returns, whatever happens. -/
theorem C89_never_returns {σ τ : St} {as : List Act} (h : Reachable σ) (hh : σ.host.pc = .released ∨ σ.host.pc = .finished)
    (hp : Before σ) (hx : exec σ as = .to τ) : Before τ := by
  suffices hk : (Reachable τ ∧ (τ.host.pc = .released ∨ τ.host.pc = .finished)) ∧ Before τ from hk.2
  refine preserved (P := fun τ => (Reachable τ ∧ (τ.host.pc = .released ∨ τ.host.pc = .finished)) ∧ Before τ) (Q := fun _ => True) ?_
    (fun _ _ => trivial) ⟨⟨h, hh⟩, hp⟩ hx
  rintro σ a σ' - ⟨⟨h, hh⟩, hp⟩ hs
  have hr := h.step hs
  obtain ⟨hf, hend, he⟩ := step_eff hs
  cases he with
  | main hm =>
    by_cases hstop : σ.pc = .stop
    · rw [C89_undefined h hh hstop hend] at hs; cases hs
    · unfold mainStep at hm
      rcases hp with hp | hp | hp | hp | hp <;> rw [hp] at hm <;> simp only at hm
      · split at hm <;> cases hm
        · exact ⟨⟨hr, hh⟩, by simp [Before]⟩
        · exact ⟨⟨hr, hh⟩, by simp [Before]⟩
      · split at hm <;> cases hm
        exact ⟨⟨hr, hh⟩, by simp [Before]⟩
      · cases hm; exact ⟨⟨hr, by simpa using hh⟩, by simp [Before]⟩
      · cases hm; exact ⟨⟨hr, hh⟩, by simp [Before]⟩
      · exact absurd hp hstop
  | registerFails hc => simp [Before, hc] at hp
  | eventFails hc => simp [Before, hc] at hp
  | control _ _ _ => exact ⟨⟨hr, hh⟩, hp⟩
  | handler hm =>
    obtain ⟨e1, _, e3, _⟩ := handler_rest hm
    exact ⟨⟨hr, by rw [e1]; exact hh⟩, by simp only [Before, e3]; exact hp⟩
  | exit _ => exact ⟨⟨hr, hh⟩, hp⟩
  | host hst hsig hc =>
    refine ⟨⟨hr, ?_⟩, hp⟩
    rename_i a s
    cases a with
    | signal => exact absurd rfl hsig
    | bus x =>
      rcases bus_pc hst with e | ⟨e, _⟩
      · simp only; rw [e]; exact hh
      · rw [e] at hh; simp at hh
    | raise =>
      simp only [Proc.step, Proc.raiseStep] at hst
      rcases hh with hh | hh <;> rw [hh] at hst <;> cases hst
    | main =>
      have hnf := (hc.resolve_left (by simp)).2
      simp only [Proc.step, Proc.mainStep] at hst
      rcases hh with hh | hh
      · rw [hh] at hst; cases hst; exact .inr rfl
      · exact absurd hh hnf

/-- And until a stop control arrives, the service does not tell Windows: the last report stays RUNNING. -/
theorem C89_still_running {σ τ : St} {as : List Act} (h : Reachable σ) (hp : Waiting σ) (hi : σ.handler = .idle) (hev : σ.event = false)
    (hn : ∀ a ∈ as, a ≠ .control) (hx : exec σ as = .to τ) : τ.sent = σ.sent ∧ Waiting τ := by
  suffices hk : (Reachable τ ∧ τ.handler = .idle ∧ τ.event = false) ∧ (τ.sent = σ.sent ∧ Waiting τ) from hk.2
  refine preserved (P := fun τ => (Reachable τ ∧ τ.handler = .idle ∧ τ.event = false) ∧ (τ.sent = σ.sent ∧ Waiting τ))
    (Q := fun a => a ≠ .control) ?_ hn ⟨⟨h, hi, hev⟩, rfl, hp⟩ hx
  rintro ρ a ρ' hq ⟨⟨h, hi, hev⟩, hsent, hp⟩ hs
  have hr := h.step hs
  obtain ⟨hf, _, he⟩ := step_eff hs
  cases he with
  | main hm =>
    unfold mainStep at hm
    rcases hp with hp | hp <;> rw [hp] at hm <;> simp only at hm
    · have hns : isStopped ρ = false := by
        have := Proc.C64_never_stopped h.host.reach
        simp only [isStopped]
        cases hrs : ρ.host.runState <;> first | rfl | exact absurd hrs this
      rw [hns] at hm
      cases hm; exact ⟨⟨hr, hi, hev⟩, hsent, .inr rfl⟩
    · rw [hev] at hm; cases hm
  | registerFails hc => rcases hp with hp | hp <;> rw [hc] at hp <;> cases hp
  | eventFails hc => rcases hp with hp | hp <;> rw [hc] at hp <;> cases hp
  | control _ _ _ => exact absurd rfl hq
  | handler hm => rw [handlerStep, hi] at hm; cases hm
  | exit _ => exact ⟨⟨hr, hi, hev⟩, hsent, hp⟩
  | host _ _ _ => exact ⟨⟨hr, hi, hev⟩, hsent, hp⟩

/-! ## C90: what Windows is told -/

/-- The reports come in order: START_PENDING, accepting no control, then RUNNING (or STOPPED, if there is no event), then
only STOP_PENDING and STOPPED. -/
theorem C90_orderly {σ : St} (h : Reachable σ) : Orderly σ.sent := by
  have hs := h.seen
  unfold Seen at hs
  have ht : Tail σ → Orderly σ.sent := by
    rintro ⟨x, rest, h1, h2, h3, _⟩
    rw [h1]
    exact ⟨rfl, h2, h3⟩
  split at hs
  case h_1 => rw [hs.1]; trivial
  case h_2 => rw [hs.1]; trivial
  case h_3 => rw [hs.1]; trivial
  case h_9 => exact ht hs
  all_goals rw [hs.1]; rfl

/-- The checkpoints of the pending reports never decrease. -/
theorem C90_checkpoints {σ : St} (h : Reachable σ) :
    (σ.sent.filter (fun s => s.checkpoint ≠ 0)).Pairwise (fun s t => s.checkpoint ≤ t.checkpoint) := by
  refine (List.Pairwise.filter _ h.counted.sorted).imp_of_mem ?_
  intro s t _ ht hst
  have := (List.mem_filter.1 ht).2
  exact hst (by simpa using this)

/-- If the control handler has returned when `Init` notices the event, and no further control arrives, the last thing
Windows is told is STOPPED. -/
theorem C90_stopped_last {σ τ : St} {as : List Act} (hp : σ.pc = .woken) (hi : σ.handler = .idle)
    (hn : ∀ a ∈ as, a ≠ .control) (hx : exec σ as = .to τ) (ht : τ.pc = .stop ∨ τ.pc = .join ∨ τ.pc = .over) :
    τ.sent = σ.sent ++ [⟨.stopped, true, 0⟩] := by
  suffices hk : τ.handler = .idle ∧ ((τ.pc = .woken ∧ τ.sent = σ.sent) ∨ (τ.pc = .wokenS ∧ τ.sent = σ.sent ∧ τ.status = ⟨.stopped, true, 0⟩) ∨
      ((τ.pc = .stop ∨ τ.pc = .join ∨ τ.pc = .over) ∧ τ.sent = σ.sent ++ [⟨.stopped, true, 0⟩])) by
    rcases hk.2 with ⟨h, _⟩ | ⟨h, _⟩ | h
    · rw [h] at ht; simp at ht
    · rw [h] at ht; simp at ht
    · exact h.2
  refine preserved (P := fun τ => τ.handler = .idle ∧ ((τ.pc = .woken ∧ τ.sent = σ.sent) ∨
      (τ.pc = .wokenS ∧ τ.sent = σ.sent ∧ τ.status = ⟨.stopped, true, 0⟩) ∨
      ((τ.pc = .stop ∨ τ.pc = .join ∨ τ.pc = .over) ∧ τ.sent = σ.sent ++ [⟨.stopped, true, 0⟩])))
    (Q := fun a => a ≠ .control) ?_ hn ⟨hi, .inl ⟨hp, rfl⟩⟩ hx
  rintro ρ a ρ' hq ⟨hi, hk⟩ hs
  obtain ⟨hf, _, he⟩ := step_eff hs
  cases he with
  | main hm =>
    unfold mainStep at hm
    rcases hk with ⟨h, h1⟩ | ⟨h, h1, h2⟩ | ⟨h | h | h, h1⟩ <;> rw [h] at hm <;> simp only at hm
    · cases hm
      exact ⟨by simpa using hi, .inr (.inl ⟨rfl, by simpa using h1, by simp [fill]⟩)⟩
    · cases hm
      exact ⟨hi, .inr (.inr ⟨.inl rfl, by simp [send, h1, h2]⟩)⟩
    · unfold stopHost at hm
      split at hm <;> cases hm
      exact ⟨hi, .inr (.inr ⟨.inr (.inl rfl), h1⟩)⟩
    · split at hm <;> cases hm
      exact ⟨hi, .inr (.inr ⟨.inr (.inr rfl), h1⟩)⟩
    · cases hm
  | registerFails hc => rcases hk with ⟨h, _⟩ | ⟨h, _⟩ | ⟨h | h | h, _⟩ <;> rw [hc] at h <;> cases h
  | eventFails hc => rcases hk with ⟨h, _⟩ | ⟨h, _⟩ | ⟨h | h | h, _⟩ <;> rw [hc] at h <;> cases h
  | control _ _ _ => exact absurd rfl hq
  | handler hm => rw [handlerStep, hi] at hm; cases hm
  | exit _ => exact ⟨hi, hk⟩
  | host _ _ _ => exact ⟨hi, hk⟩

/-- From the moment `Init` tells Windows STOPPED the process may end, and until `LampPost::Start` has returned that is
undefined: the `LampPost` object is destroyed while its thread runs. -/
theorem C90_exit_undefined {σ τ : St} {as : List Act} (h : Reachable σ) (hp : σ.pc = .woken) (hi : σ.handler = .idle)
    (hn : ∀ a ∈ as, a ≠ .control) (hx : exec σ as = .to τ) (hf : τ.host.pc ≠ .failed) (he : τ.ended = false)
    (ht : τ.pc = .stop ∨ (τ.pc = .join ∧ τ.host.pc ≠ .finished)) : step τ .exit = .ub := by
  have ht' : τ.pc = .stop ∨ τ.pc = .join ∨ τ.pc = .over := ht.elim .inl (fun e => .inr (.inl e.1))
  have hl := C90_stopped_last hp hi hn hx ht'
  have hs : τ.started = true := (h.exec hx).host.late (by rcases ht with e | ⟨e, _⟩ <;> rw [e] <;> rfl)
  have hidle : τ.handler = .idle := by
    refine preserved (P := fun τ => τ.handler = .idle) (Q := fun a => a ≠ .control) ?_ hn hi hx
    rintro ρ a ρ' hq hi hs
    obtain ⟨_, _, he⟩ := step_eff hs
    cases he with
    | main hm =>
      unfold mainStep stopHost at hm
      repeat' split at hm
      all_goals cases hm
      all_goals simp [send, hi]
    | registerFails _ => exact hi
    | eventFails _ => exact hi
    | control _ _ _ => exact absurd rfl hq
    | handler hm => rw [handlerStep, hi] at hm; cases hm
    | exit _ => exact hi
    | host _ _ _ => exact hi
  have hor : τ.host.pc ≠ .finished ∨ τ.pc = .stop := ht.elim .inr (fun e => .inl e.2)
  simp [step, hf, he, exit, hidle, hl, hs, hor]

theorem over_finished {σ : St} (h : Reachable σ) (hp : σ.pc = .over) (hs : σ.started = true) : σ.host.pc = .finished := by
  suffices hk : (σ.pc = .over → σ.started = true → σ.host.pc = .finished) ∧ (σ.pc = .noEvent ∨ σ.pc = .noEventS ∨ σ.pc = .enter ∨ σ.pc = .enterS ∨ σ.pc = .create → σ.started = false) from
    hk.1 hp hs
  refine induct (P := fun σ => (σ.pc = .over → σ.started = true → σ.host.pc = .finished) ∧ (σ.pc = .noEvent ∨ σ.pc = .noEventS ∨ σ.pc = .enter ∨ σ.pc = .enterS ∨ σ.pc = .create → σ.started = false)) ?_ ?_ h
  · intro σ hi
    unfold init at hi
    split at hi <;> cases hi
    simp
  · rintro ρ a ρ' ⟨h1, h2⟩ hs
    obtain ⟨hf, _, he⟩ := step_eff hs
    cases he with
    | main hm =>
      unfold mainStep stopHost at hm
      repeat' split at hm
      all_goals cases hm
      all_goals simp_all [send]
    | registerFails hc => simp_all
    | eventFails hc => simp_all
    | control _ _ _ => exact ⟨h1, h2⟩
    | handler hm =>
      obtain ⟨e1, e2, e3, _⟩ := handler_rest hm
      rw [e1, e2, e3]; exact ⟨h1, h2⟩
    | exit _ => exact ⟨h1, h2⟩
    | host hst hsig hc =>
      refine ⟨?_, h2⟩
      intro hp hs
      have hfin := h1 hp hs
      rcases hc with ⟨x, rfl⟩ | ⟨_, hc⟩
      · rcases bus_pc hst with e | ⟨e, _⟩
        · simp only; rw [e]; exact hfin
        · rw [hfin] at e; cases e
      · exact absurd hfin hc

/-- After `Main` has returned, ending the process is well defined. -/
theorem C90_exit_defined {σ : St} (h : Reachable σ) (hp : σ.pc = .over) : step σ .exit ≠ .ub := by
  unfold step
  split
  · simp
  · simp only [exit]
    split
    · split
      · rename_i hc
        have := over_finished h hp hc.1
        rw [this, hp] at hc
        simp at hc
      · simp
    · simp

/-! ## Runs -/

/-- From the moment Windows calls `Main`. -/
def play (as : List Act) : R := match init with
  | .to σ => exec σ as
  | r => r

/-- What the examples look at. -/
def look : R → Option (Pc × Proc.Pc × Bool × Bool × List Phase)
  | .to σ => some (σ.pc, σ.host.pc, σ.handler == .idle, σ.event, σ.sent.map (·.phase))
  | _ => none

theorem look_to {as : List Act} {x : Pc × Proc.Pc × Bool × Bool × List Phase} (h : look (play as) = some x) :
    ∃ σ, play as = .to σ ∧ Reachable σ ∧ σ.pc = x.1 ∧ σ.host.pc = x.2.1 ∧ (x.2.2.1 = true → σ.handler = .idle) ∧ σ.event = x.2.2.2.1 ∧
      σ.sent.map (·.phase) = x.2.2.2.2 := by
  unfold play at h ⊢
  cases hi : init with
  | no => rw [hi] at h; cases h
  | ub => rw [hi] at h; cases h
  | to σ0 =>
    rw [hi] at h
    simp only at h ⊢
    cases he : exec σ0 as with
    | no => rw [he] at h; cases h
    | ub => rw [he] at h; cases h
    | to σ =>
      rw [he] at h
      simp only [look, Option.some.injEq] at h
      subst h
      refine ⟨σ, rfl, ⟨σ0, as, hi, he⟩, rfl, rfl, ?_, rfl, rfl⟩
      intro hh; simpa using hh

/-- `Main` up to the wait. -/
def up : List Act := List.replicate 7 .main

/-- The host thread into `mRootBus->Start()`. -/
def hostUp : List Act := List.replicate 4 (.host .main)

/-- The stop control, the handler and `Init` taking turns in such a way that Windows is never told STOPPED, although the
service has ended. -/
theorem C90_stopped_not_reported : ∃ as σ, play as = .to σ ∧ σ.pc = .over ∧ σ.host.pc = .finished ∧ σ.handler = .idle ∧
    .control ∈ as ∧ ∀ s ∈ σ.sent, s.phase ≠ .stopped := by
  obtain ⟨σ, h, hr, h1, h2, h3, h4, h5⟩ := look_to
    (as := up ++ hostUp ++ [.control, .handler, .handler, .handler, .handler, .main, .main, .handler, .main, .handler, .main] ++
      [.host (.bus (.run .go))] ++ List.replicate 4 (.host .main) ++ [.main])
    (x := (.over, .finished, true, true, [.startPending, .running, .stopPending, .stopPending, .stopPending])) (by decide +kernel)
  refine ⟨_, σ, h, h1, h2, h3 rfl, by simp, ?_⟩
  intro s hs hp
  have : s.phase ∈ σ.sent.map (·.phase) := List.mem_map_of_mem hs
  rw [h5, hp] at this
  simp at this

/-- The handler from start to end, and `Init` up to its call of `Stop`. -/
def stopped : List Act := [.control, .handler, .handler, .handler, .handler, .handler, .handler, .main, .main, .main]

/-- C88_lost: the control arrives before the thread has got anywhere. -/
example : ∃ σ, Reachable σ ∧ σ.pc = .stop ∧ NotYet σ ∧ σ.ended = false ∧ σ.sent.map (·.phase) = [.startPending, .running, .stopPending, .stopPending, .stopped] := by
  obtain ⟨σ, h, hr, h1, h2, h3, h4, h5⟩ := look_to (as := up ++ stopped)
    (x := (.stop, .made, true, true, [.startPending, .running, .stopPending, .stopPending, .stopped])) (by decide +kernel)
  have he : (match play (up ++ stopped) with | .to σ => σ.ended | _ => true) = false := by decide +kernel
  rw [h] at he
  exact ⟨σ, hr, h1, .inl h2, he, h5⟩

/-- C88_lost: afterwards the host really does run. -/
example : ∃ σ, play (up ++ stopped ++ [.main] ++ hostUp ++ [.host (.bus (.run .go))]) = .to σ ∧ σ.pc = .join ∧ σ.host.pc = .running := by
  obtain ⟨σ, h, _, h1, h2, _⟩ := look_to (as := up ++ stopped ++ [.main] ++ hostUp ++ [.host (.bus (.run .go))])
    (x := (.join, .running, true, true, [.startPending, .running, .stopPending, .stopPending, .stopped])) (by decide +kernel)
  exact ⟨σ, h, h1, h2⟩

/-- C88_acts. -/
example : ∃ σ, Reachable σ ∧ σ.pc = .wait ∧ σ.handler = .idle ∧ σ.host.pc = .running ∧ σ.ended = false := by
  obtain ⟨σ, h, hr, h1, h2, h3, h4, h5⟩ := look_to (as := up ++ hostUp)
    (x := (.wait, .running, true, false, [.startPending, .running])) (by decide +kernel)
  have he : (match play (up ++ hostUp) with | .to σ => σ.ended | _ => true) = false := by decide +kernel
  rw [h] at he
  exact ⟨σ, hr, h1, h3 rfl, h2, he⟩

/-- C88_works. -/
example : ∃ σ, Reachable σ ∧ σ.pc = .stop ∧ σ.host.pc = .running ∧ σ.ended = false := by
  obtain ⟨σ, h, hr, h1, h2, h3, h4, h5⟩ := look_to (as := up ++ hostUp ++ stopped)
    (x := (.stop, .running, true, true, [.startPending, .running, .stopPending, .stopPending, .stopped])) (by decide +kernel)
  have he : (match play (up ++ hostUp ++ stopped) with | .to σ => σ.ended | _ => true) = false := by decide +kernel
  rw [h] at he
  exact ⟨σ, hr, h1, h2, he⟩

/-- Something else, here another thread, stops the root bus. -/
def selfEnd : List Act := hostUp ++ [.host (.bus (.stop 0)), .host (.bus (.run .go))] ++ List.replicate 4 (.host .main)

/-- C89_still_running, C89_never_returns: the host has ended, Windows still reads RUNNING. -/
example : ∃ σ, Reachable σ ∧ σ.host.pc = .finished ∧ Before σ ∧ Waiting σ ∧ σ.handler = .idle ∧ σ.event = false ∧
    σ.sent.map (·.phase) = [.startPending, .running] := by
  obtain ⟨σ, h, hr, h1, h2, h3, h4, h5⟩ := look_to (as := up ++ selfEnd)
    (x := (.wait, .finished, true, false, [.startPending, .running])) (by decide +kernel)
  exact ⟨σ, hr, h2, .inr (.inl h1), .inr h1, h3 rfl, h4, h5⟩

/-- C89_undefined: and then the stop control arrives. -/
example : ∃ σ, Reachable σ ∧ σ.host.pc = .finished ∧ σ.pc = .stop ∧ σ.ended = false := by
  obtain ⟨σ, h, hr, h1, h2, h3, h4, h5⟩ := look_to (as := up ++ selfEnd ++ stopped)
    (x := (.stop, .finished, true, true, [.startPending, .running, .stopPending, .stopPending, .stopped])) (by decide +kernel)
  have he : (match play (up ++ selfEnd ++ stopped) with | .to σ => σ.ended | _ => true) = false := by decide +kernel
  rw [h] at he
  exact ⟨σ, hr, h2, h1, he⟩

theorem unstarted {σ : St} (h : Reachable σ) : σ.pc = .enter ∨ σ.pc = .refused → σ.started = false ∧ σ.ended = false := by
  refine (induct (P := fun σ => Seen σ ∧ (σ.pc = .enter ∨ σ.pc = .refused → σ.started = false ∧ σ.ended = false)) ?_ ?_ h).2
  · intro σ hi
    refine ⟨Reachable.seen ⟨σ, [], hi, rfl⟩, fun _ => ?_⟩
    unfold init at hi
    split at hi <;> cases hi
    exact ⟨rfl, rfl⟩
  · rintro σ a σ' ⟨h1, h2⟩ hs
    refine ⟨h1.step hs, fun hp => ?_⟩
    have hno : a = .exit → ¬(σ.pc = .enter ∨ σ.pc = .refused) := by
      rintro rfl hp
      have : σ.sent = [] := by rcases hp with e | e <;> (simp only [Seen, e] at h1; exact h1.1)
      unfold step at hs
      split at hs
      · cases hs
      · simp [exit, this] at hs
    obtain ⟨_, _, he⟩ := step_eff hs
    cases he with
    | main hm =>
      exfalso
      unfold mainStep stopHost at hm
      repeat' split at hm
      all_goals cases hm
      all_goals simp at hp
      all_goals (split at hp <;> simp at hp)
    | registerFails e => exact h2 (.inl e)
    | eventFails _ => simp at hp
    | control _ _ _ => exact h2 hp
    | handler hm =>
      obtain ⟨_, e2, e3, e4⟩ := handler_rest hm
      rw [e2, e4]; rw [e3] at hp; exact h2 hp
    | exit _ => exact absurd hp (hno rfl)
    | host _ _ _ => exact h2 hp

/-- If the control handler cannot be registered, Windows is never told anything: no report is ever sent, no control is taken, the host
never starts, and the process does not end by itself. -/
theorem C90_unregistered {σ τ : St} {as : List Act} (h : Reachable σ) (hx : exec σ (.registerFails :: as) = .to τ) :
    τ.sent = [] ∧ τ.handler = .idle ∧ τ.host.pc = .made ∧ τ.ended = false ∧ ∀ a, step τ a ≠ .no → ∃ x, a = .host (.bus x) := by
  have hq : τ.pc = .refused := by
    simp only [exec] at hx
    cases hs : step σ .registerFails with
    | no => rw [hs] at hx; cases hx
    | ub => rw [hs] at hx; cases hx
    | to ρ =>
      rw [hs] at hx
      refine preserved (P := fun τ => τ.pc = .refused) (Q := fun _ => True) ?_ (fun _ _ => trivial) ?_ hx
      · intro ρ a ρ' _ hp hs
        obtain ⟨_, _, he⟩ := step_eff hs
        cases he with
        | main hm => simp only [mainStep, hp] at hm; cases hm
        | registerFails _ => rfl
        | eventFails e => rw [hp] at e; cases e
        | control _ _ _ => exact hp
        | handler hm => rw [(handler_rest hm).2.2.1]; exact hp
        | exit _ => exact hp
        | host _ _ _ => exact hp
      · obtain ⟨_, _, he⟩ := step_eff hs
        cases he; rfl
  have hr := h.exec hx
  have hs := hr.seen
  simp only [Seen, hq] at hs
  obtain ⟨h1, h2⟩ := unstarted hr (.inr hq)
  have hm := hr.host.fresh h1
  refine ⟨hs.1, hs.2.1, hm, h2, fun a ha => ?_⟩
  unfold step at ha
  rw [if_neg (by rw [hm, h2]; simp)] at ha
  cases a with
  | main => simp [mainStep, hq] at ha
  | registerFails => simp [registerFails, hq] at ha
  | eventFails => simp [eventFails, hq] at ha
  | control => simp [control, hs.1] at ha
  | handler => simp [handlerStep, hs.2.1] at ha
  | exit => simp [exit, hs.1] at ha
  | host a => cases a <;> first | exact ⟨_, rfl⟩ | simp [hostStep, h1] at ha

/-- C90_unregistered: registering fails, and a bus of the host is used afterwards. -/
example : ∃ σ τ, Reachable σ ∧ σ.pc = .enter ∧ exec σ [.registerFails, .host (.bus (.publish 0 ⟨[], bs "/x", .empty⟩))] = .to τ := by
  have hi : ∃ σ τ, init = .to σ ∧ σ.pc = .enter ∧ exec σ [.registerFails, .host (.bus (.publish 0 ⟨[], bs "/x", .empty⟩))] = .to τ :=
    ⟨_, _, rfl, rfl, rfl⟩
  obtain ⟨σ, τ, h1, h2, h3⟩ := hi
  exact ⟨σ, τ, ⟨σ, [], h1, rfl⟩, h2, h3⟩

/-- C90_stopped_last, C90_exit_undefined: `Init` has noticed the event and the handler has returned. -/
example : ∃ σ τ, Reachable σ ∧ σ.pc = .woken ∧ σ.handler = .idle ∧ exec σ [.main, .main, .main] = .to τ ∧ τ.pc = .join ∧ τ.host.pc = .running := by
  obtain ⟨σ, h, hr, h1, h2, h3, h4, h5⟩ := look_to (as := up ++ hostUp ++ stopped.take 8)
    (x := (.woken, .running, true, true, [.startPending, .running, .stopPending, .stopPending])) (by decide +kernel)
  obtain ⟨τ, h', _, h1', h2', _⟩ := look_to (as := (up ++ hostUp ++ stopped.take 8) ++ [.main, .main, .main])
    (x := (.join, .running, true, true, [.startPending, .running, .stopPending, .stopPending, .stopped])) (by decide +kernel)
  refine ⟨σ, τ, hr, h1, h3 rfl, ?_, h1', h2'⟩
  unfold play at h h'
  cases hi : init with
  | no => rw [hi] at h; cases h
  | ub => rw [hi] at h; cases h
  | to σ0 =>
    rw [hi] at h h'
    simp only at h h'
    rw [exec_append, h] at h'
    exact h'

/-- C90_exit_defined, and the start that fails. -/
example : ∃ σ, Reachable σ ∧ σ.pc = .over ∧ σ.sent.map (·.phase) = [.startPending, .stopped] := by
  obtain ⟨σ, h, hr, h1, h2, h3, h4, h5⟩ := look_to (as := [.main, .main, .eventFails, .main, .main])
    (x := (.over, .made, true, false, [.startPending, .stopped])) (by decide +kernel)
  exact ⟨σ, hr, h1, h5⟩

end LP.Svc
