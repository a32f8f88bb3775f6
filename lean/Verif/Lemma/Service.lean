import Verif.Model.Service
import Verif.Prop.Process
/-!
# Invariants of the Windows service
-/
namespace LP.Svc

/-- A state the service can be in. -/
def Reachable (σ : St) : Prop := ∃ σ0 as, init = .to σ0 ∧ exec σ0 as = .to σ

theorem exec_append {σ : St} {as bs : List Act} : exec σ (as ++ bs) = match exec σ as with
    | .to σ' => exec σ' bs
    | r => r := by
  induction as generalizing σ with
  | nil => rfl
  | cons a as ih =>
    simp only [List.cons_append, exec]
    cases step σ a with
    | to σ' => exact ih
    | no => rfl
    | ub => rfl

theorem exec_one {σ : St} {a : Act} : exec σ [a] = step σ a := by
  simp only [exec]
  cases step σ a <;> rfl

theorem Reachable.exec {σ σ' : St} {as : List Act} (h : Reachable σ) (he : exec σ as = .to σ') : Reachable σ' := by
  obtain ⟨σ0, bs, h0, h1⟩ := h
  exact ⟨σ0, bs ++ as, h0, by rw [exec_append, h1]; exact he⟩

theorem Reachable.step {σ σ' : St} {a : Act} (h : Reachable σ) (he : step σ a = .to σ') : Reachable σ' :=
  h.exec (as := [a]) (by rw [exec_one]; exact he)

/-- Preservation along executions whose events satisfy `Q`. -/
theorem preserved {P : St → Prop} {Q : Act → Prop} (hs : ∀ σ a σ', Q a → P σ → step σ a = .to σ' → P σ')
    {σ σ' : St} {as : List Act} (hq : ∀ a ∈ as, Q a) (h : P σ) (he : exec σ as = .to σ') : P σ' := by
  induction as generalizing σ with
  | nil => cases he; exact h
  | cons a as ih =>
    simp only [exec] at he
    cases hst : step σ a with
    | no => rw [hst] at he; cases he
    | ub => rw [hst] at he; cases he
    | to σ1 =>
      rw [hst] at he
      exact ih (fun x hx => hq x (List.mem_cons_of_mem _ hx)) (hs σ a σ1 (hq a (List.mem_cons_self ..)) h hst) he

theorem induct {P : St → Prop} (h0 : ∀ σ, init = .to σ → P σ) (hs : ∀ σ a σ', P σ → step σ a = .to σ' → P σ') {σ : St}
    (h : Reachable σ) : P σ := by
  obtain ⟨σ0, as, hi, he⟩ := h
  exact preserved (Q := fun _ => True) (fun σ a σ' _ => hs σ a σ') (fun _ _ => trivial) (h0 σ0 hi) he

/-! ## What an event does, thread by thread -/

/-- The changes an event can make. -/
inductive Eff (σ : St) : Act → St → Prop where
  | main {σ'} (h : mainStep σ = .to σ') : Eff σ .main σ'
  | registerFails (h : σ.pc = .enter) : Eff σ .registerFails { σ with pc := .refused }
  | eventFails (h : σ.pc = .create) : Eff σ .eventFails { σ with pc := .noEvent }
  | control {s} (h : σ.handler = .idle) (hl : σ.sent.getLast? = some s) (ha : s.accepts = true) :
      Eff σ .control { σ with handler := .enter }
  | handler {σ'} (h : handlerStep σ = .to σ') : Eff σ .handler σ'
  | exit (h : σ.handler = .idle) : Eff σ .exit { σ with ended := true }
  | host {a s} (h : Proc.step σ.host a = .to s) (hsig : a ≠ .signal)
      (hst : (∃ x, a = .bus x) ∨ (σ.started = true ∧ σ.host.pc ≠ .finished)) : Eff σ (.host a) { σ with host := s }

theorem step_eff {σ σ' : St} {a : Act} (h : step σ a = .to σ') : σ.host.pc ≠ .failed ∧ σ.ended = false ∧ Eff σ a σ' := by
  unfold step at h
  split at h
  · cases h
  rename_i hn
  have hn1 : σ.host.pc ≠ .failed := fun e => hn (.inl e)
  have hn2 : σ.ended = false := by
    cases he : σ.ended with
    | false => rfl
    | true => exact absurd (.inr he) hn
  refine ⟨hn1, hn2, ?_⟩
  cases a with
  | main => exact .main h
  | registerFails =>
    simp only [registerFails] at h
    split at h
    · cases h; exact .registerFails (by assumption)
    · cases h
  | eventFails =>
    simp only [eventFails] at h
    split at h
    · cases h; exact .eventFails (by assumption)
    · cases h
  | control =>
    simp only [control] at h
    split at h
    · cases hl : σ.sent.getLast? with
      | none => rw [hl] at h; cases h
      | some s =>
        rw [hl] at h; simp only at h
        split at h
        · cases h; exact .control (by assumption) hl (by assumption)
        · cases h
    · cases h
  | handler => exact .handler h
  | exit =>
    simp only [exit] at h
    split at h
    · rename_i hh
      split at h
      · cases h
      · cases h; exact .exit hh.1
    · cases h
  | host a =>
    simp only [hostStep] at h
    cases hst : Proc.step σ.host a with
    | no => rw [hst] at h; cases a <;> simp only at h <;> (try split at h) <;> cases h
    | ub => rw [hst] at h; cases a <;> simp only at h <;> (try split at h) <;> cases h
    | to s =>
      rw [hst] at h
      cases a with
      | signal => cases h
      | bus x => cases h; exact .host hst (by simp) (.inl ⟨x, rfl⟩)
      | main =>
        simp only at h
        split at h
        · rename_i hc
          cases h; exact .host hst (by simp) (.inr hc)
        · cases h
      | raise =>
        simp only at h
        split at h
        · rename_i hc
          cases h; exact .host hst (by simp) (.inr hc)
        · cases h

section
variable (p : Phase) (σ : St)
@[simp] theorem fill_host : (fill p σ).host = σ.host := by unfold fill; simp only; split <;> rfl
@[simp] theorem fill_pc : (fill p σ).pc = σ.pc := by unfold fill; simp only; split <;> rfl
@[simp] theorem fill_handler : (fill p σ).handler = σ.handler := by unfold fill; simp only; split <;> rfl
@[simp] theorem fill_started : (fill p σ).started = σ.started := by unfold fill; simp only; split <;> rfl
@[simp] theorem fill_event : (fill p σ).event = σ.event := by unfold fill; simp only; split <;> rfl
@[simp] theorem fill_sent : (fill p σ).sent = σ.sent := by unfold fill; simp only; split <;> rfl
@[simp] theorem fill_ended : (fill p σ).ended = σ.ended := by unfold fill; simp only; split <;> rfl
end

theorem handler_rest {σ σ' : St} (h : handlerStep σ = .to σ') :
    σ'.host = σ.host ∧ σ'.started = σ.started ∧ σ'.pc = σ.pc ∧ σ'.ended = σ.ended := by
  unfold handlerStep at h
  split at h <;> cases h <;> simp [send]

/-! ## The host inside the service -/

theorem proc_next {s s' : Proc.St} {a : Proc.Act} (h : Proc.Reachable s) (hs : Proc.step s a = .to s') : Proc.Reachable s' := by
  obtain ⟨as, h⟩ := h
  refine ⟨as ++ [a], ?_⟩
  rw [Proc.exec_append, h]
  simp only [Proc.exec, hs]

theorem bus_pc {s s' : Proc.St} {x : Bus.Act} (h : Proc.step s (.bus x) = .to s') :
    s'.pc = s.pc ∨ (s.pc = .running ∧ s'.pc = .failed) := by
  simp only [Proc.step, Proc.busStep] at h
  cases hb : s.bus with
  | none => rw [hb] at h; cases h
  | some b =>
    rw [hb] at h
    cases x with
    | start => cases h
    | run c =>
      simp only at h
      split at h <;> try contradiction
      rename_i hp
      cases hst : Bus.step b (.run c) with
      | none => rw [hst] at h; cases h
      | some b' =>
        rw [hst] at h; cases h
        simp only [hp]
        split <;> simp
    | _ =>
      simp only at h
      split at h <;> cases h
      exact .inl rfl

theorem signal_pc {s s' : Proc.St} (h : Proc.signalStep s = .to s') : s'.pc = s.pc := by
  unfold Proc.signalStep at h
  split at h <;> try contradiction
  split at h <;> try contradiction
  split at h <;> cases h
  rfl

/-- The thread in `Init` has started the other one. -/
def Pc.late : Pc → Bool
  | .ask | .wait | .woken | .wokenS | .stop | .join => true
  | _ => false

/-- Before the thread is started `LampPost::Start` has not begun; afterwards the host is a reachable state of the process
model. -/
structure HostOk (σ : St) : Prop where
  reach : Proc.Reachable σ.host
  fresh : σ.started = false → σ.host.pc = .made
  late : σ.pc.late = true → σ.started = true

theorem HostOk.step {σ σ' : St} {a : Act} (h : HostOk σ) (hs : step σ a = .to σ') : HostOk σ' := by
  obtain ⟨_, _, he⟩ := step_eff hs
  cases he with
  | main hm =>
    unfold mainStep at hm
    cases hp : σ.pc <;> rw [hp] at hm <;> simp only at hm
    case stop =>
      unfold stopHost at hm
      cases hsig : Proc.signalStep σ.host with
      | no => rw [hsig] at hm; cases hm
      | ub => rw [hsig] at hm; cases hm
      | to s =>
        rw [hsig] at hm; cases hm
        refine ⟨proc_next (a := .signal) h.reach hsig, ?_, ?_⟩
        · intro hf; simp only; rw [signal_pc hsig]; exact h.fresh hf
        · intro _; exact h.late (by rw [hp]; rfl)
    case spawn => cases hm; exact ⟨h.reach, by simp, by simp⟩
    case over => cases hm
    all_goals
      try split at hm
      all_goals
        cases hm
        all_goals
          try simp only [send]
          refine ⟨?_, ?_, ?_⟩
          · first | exact h.reach | (simp only [fill_host]; exact h.reach)
          · first | exact h.fresh | (simp only [fill_host, fill_started]; exact h.fresh)
          · first
              | exact fun _ => h.late (by rw [hp]; rfl)
              | (simp only [fill_started]; exact fun _ => h.late (by rw [hp]; rfl))
              | (intro hl; cases hl)
  | registerFails hp => exact ⟨h.reach, h.fresh, by simp [Pc.late]⟩
  | eventFails hp => exact ⟨h.reach, h.fresh, by simp [Pc.late]⟩
  | control _ _ _ => exact ⟨h.reach, h.fresh, h.late⟩
  | handler hm =>
    have key := handler_rest hm
    obtain ⟨h1, h2, h3, _⟩ := key
    exact ⟨h1 ▸ h.reach, by rw [h1, h2]; exact h.fresh, by rw [h2, h3]; exact h.late⟩
  | exit _ => exact ⟨h.reach, h.fresh, h.late⟩
  | host hst hsig hc =>
    refine ⟨proc_next h.reach hst, ?_, h.late⟩
    intro hf
    rcases hc with ⟨x, rfl⟩ | ⟨h1, _⟩
    · have hmade := h.fresh hf
      rcases bus_pc hst with h2 | ⟨h2, _⟩
      · simp only; rw [h2]; exact hmade
      · rw [hmade] at h2; cases h2
    · simp only at hf; rw [hf] at h1; cases h1

theorem hostOk_init {σ : St} (h : init = .to σ) : HostOk σ := by
  unfold init at h
  cases hst : Proc.step Proc.init .main with
  | no => rw [hst] at h; cases h
  | ub => rw [hst] at h; cases h
  | to s =>
    rw [hst] at h; cases h
    refine ⟨proc_next ⟨[], rfl⟩ hst, ?_, by simp [Pc.late]⟩
    intro _
    simp only [Proc.step, Proc.mainStep, Proc.init] at hst
    split at hst <;> cases hst
    rfl

theorem Reachable.host {σ : St} (h : Reachable σ) : HostOk σ := induct (fun _ => hostOk_init) (fun _ _ _ => HostOk.step) h

theorem Proc_not_boot {s s' : Proc.St} {a : Proc.Act} (h : s.pc ≠ .boot) (hs : Proc.step s a = .to s') : s'.pc ≠ .boot := by
  cases a with
  | signal => rw [signal_pc hs]; exact h
  | raise =>
    simp only [Proc.step, Proc.raiseStep] at hs
    split at hs <;> cases hs <;> simp
  | main =>
    simp only [Proc.step, Proc.mainStep] at hs
    repeat' split at hs
    all_goals cases hs
    all_goals simp
  | bus x =>
    rcases bus_pc hs with e | ⟨_, e⟩
    · rw [e]; exact h
    · rw [e]; simp

/-- The root bus is there until `Start` releases it. -/
def HasBus (s : Proc.St) : Prop := s.bus = none → s.pc = .released ∨ s.pc = .finished

theorem HasBus.host {s s' : Proc.St} {a : Proc.Act} (h : HasBus s) (h0 : s.pc ≠ .boot) (h1 : s.pc ≠ .finished ∨ ∃ x, a = .bus x) (h2 : s.pc ≠ .failed) (hsig : a ≠ .signal)
    (hs : Proc.step s a = .to s') : HasBus s' := by
  cases a with
  | signal => exact absurd rfl hsig
  | raise =>
    simp only [Proc.step, Proc.raiseStep] at hs
    split at hs <;> cases hs <;> rename_i hp <;> intro hb <;> have := h hb <;> rw [hp] at this <;> simp at this
  | main =>
    simp only [Proc.step, Proc.mainStep] at hs
    cases hp : s.pc <;> rw [hp] at hs <;> simp only at hs
    case boot => exact absurd hp h0
    case finished => rcases h1 with h1 | ⟨x, h1⟩
                     · exact absurd hp h1
                     · cases h1
    case failed => exact absurd hp h2
    case starting =>
      repeat' split at hs
      all_goals cases hs
      intro hb; cases hb
    case running =>
      repeat' split at hs
      all_goals cases hs
      rename_i hb' _ _
      intro hb; rw [hb'] at hb; cases hb
    case unloaded => cases hs; intro _; exact .inl rfl
    case released => cases hs; intro _; exact .inr rfl
    all_goals
      cases hs
      intro hb; have := h hb; rw [hp] at this; simp at this
  | bus x =>
    simp only [Proc.step, Proc.busStep] at hs
    repeat' split at hs
    all_goals cases hs
    all_goals (intro hb; cases hb)

theorem Reachable.hasBus {σ : St} (h : Reachable σ) : HasBus σ.host ∧ σ.host.pc ≠ .boot := by
  suffices hh : (HasBus σ.host ∧ σ.host.pc ≠ .boot) ∧ HostOk σ from hh.1
  refine induct (P := fun σ => (HasBus σ.host ∧ σ.host.pc ≠ .boot) ∧ HostOk σ) ?_ ?_ h
  · intro σ hi
    have hk := hostOk_init hi
    refine ⟨⟨?_, ?_⟩, hk⟩
    · unfold init at hi
      cases hst : Proc.step Proc.init .main with
      | no => rw [hst] at hi; cases hi
      | ub => rw [hst] at hi; cases hi
      | to s =>
        rw [hst] at hi; cases hi
        simp only [Proc.step, Proc.mainStep, Proc.init] at hst
        split at hst <;> cases hst
        intro hb; cases hb
    · have : σ.started = false := by
        unfold init at hi
        split at hi <;> cases hi
        rfl
      rw [hk.fresh this]; decide
  · intro σ a σ' ⟨⟨h1, h2⟩, hk⟩ hs
    refine ⟨?_, hk.step hs⟩
    obtain ⟨hf, _, he⟩ := step_eff hs
    cases he with
    | main hm =>
      unfold mainStep at hm
      cases hp : σ.pc <;> rw [hp] at hm <;> simp only at hm
      case stop =>
        unfold stopHost at hm
        cases hsig : Proc.signalStep σ.host with
        | no => rw [hsig] at hm; cases hm
        | ub => rw [hsig] at hm; cases hm
        | to s =>
          rw [hsig] at hm; cases hm
          simp only
          rw [signal_pc hsig]
          refine ⟨?_, h2⟩
          unfold Proc.signalStep at hsig
          repeat' split at hsig
          all_goals cases hsig
          intro hb; cases hb
      all_goals
        try split at hm
        all_goals
          cases hm
          all_goals
            try simp only [send, fill_host]
            exact ⟨h1, h2⟩
    | registerFails _ => exact ⟨h1, h2⟩
    | eventFails _ => exact ⟨h1, h2⟩
    | control _ _ _ => exact ⟨h1, h2⟩
    | handler hm => obtain ⟨e, _⟩ := handler_rest hm; rw [e]; exact ⟨h1, h2⟩
    | exit _ => exact ⟨h1, h2⟩
    | host hst hsig hc =>
      refine ⟨h1.host h2 (hc.elim .inr (fun e => .inl e.2)) hf hsig hst, ?_⟩
      exact Proc_not_boot h2 hst

end LP.Svc
