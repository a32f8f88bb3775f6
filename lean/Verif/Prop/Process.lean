import Verif.Model.Process
import Verif.Prop.BusQueue
/-!
# Run state and shutdown signals (C64, C65)
-/
namespace LP.Proc

/-- A state the process can be in. -/
def Reachable (s : St) : Prop := ∃ as, exec init as = .to s

theorem exec_append {s : St} {as bs : List Act} : exec s (as ++ bs) = match exec s as with
    | .to s' => exec s' bs
    | r => r := by
  induction as generalizing s with
  | nil => rfl
  | cons a as ih =>
    simp only [List.cons_append, exec]
    cases step s a with
    | to s' => exact ih
    | no => rfl
    | ub => rfl

theorem induct {P : St → Prop} (h0 : P init) (hs : ∀ s a s', P s → step s a = .to s' → P s') {s : St} (h : Reachable s) : P s := by
  obtain ⟨as, h⟩ := h
  have key : ∀ (as : List Act) (s0 : St), P s0 → exec s0 as = .to s → P s := by
    intro as
    induction as with
    | nil => intro s0 hp he; cases he; exact hp
    | cons a as ih =>
      intro s0 hp he
      simp only [exec] at he
      cases hst : step s0 a with
      | to s1 => rw [hst] at he; exact ih s1 (hs _ _ _ hp hst) he
      | no => rw [hst] at he; cases he
      | ub => rw [hst] at he; cases he
  exact key as init h0 h

/-- What holds in every state: the hierarchy is a reachable one, the bus thread is inside `Run` only while the main
thread is inside `mRootBus->Start()`, and afterwards the root is stopped. -/
structure Good (s : St) : Prop where
  reach : ∀ b, s.bus = some b → Bus.Reachable b
  off : ∀ b, s.bus = some b → s.pc ≠ .running → b.phase = .off
  null : s.pc = .boot ∨ s.pc = .released ∨ s.pc = .finished → s.bus = none
  has : s.pc = .running ∨ s.pc = .made → s.bus ≠ none
  stopped : ∀ b, s.bus = some b → s.pc = .returned ∨ s.pc = .unloaded → (b.w.bus 0).running = false
  left : ∀ b, s.bus = some b → s.pc = .running → b.phase = .off → (b.w.bus 0).running = false
  state : s.runState ≠ .stopped

theorem bus_step_reach {b b' : Bus.St} {a : Bus.Act} (h : Bus.Reachable b) (hs : Bus.step b a = some b') : Bus.Reachable b' :=
  h.exec (as := [a]) (by simp only [Bus.exec, hs])

theorem run_off {σ σ' : Bus.St} {c : Bus.Choice} (hc : c ≠ .throwing) (h : Bus.step σ (.run c) = some σ') (hp : σ'.phase = .off) :
    (σ'.w.bus 0).running = false := by
  simp only [Bus.step] at h
  unfold Bus.rstep at h
  split at h
  · cases h
    cases hr : (σ.w.bus 0).running with
    | false => rfl
    | true => simp [hr] at hp
  · cases h; simp only at hp; split at hp <;> cases hp
  · cases h; cases hp
  · cases h; cases hp
  · cases h; cases hp
  · cases h
    cases hr : (σ.w.bus 0).running with
    | false => rfl
    | true => simp [hr] at hp
  · cases h; cases hp
  · cases h; cases hp
  · split at h <;> cases h <;> cases hp
  · cases h; cases hp
  · split at h <;> cases h <;> cases hp
  · cases h; cases hp
  · exact absurd rfl hc
  · cases h

theorem external_phase {σ σ' : Bus.St} {a : Bus.Act} (hi : Bus.Reachable σ) (h1 : a ≠ .start) (h2 : ∀ c, a ≠ .run c)
    (h : Bus.step σ a = some σ') : σ'.phase = .off ↔ σ.phase = .off := by
  have := (Bus.step_external hi.inv.wok h2 h).phase
  rcases this with h' | ⟨h', h''⟩ | ⟨h', h''⟩
  · rw [h']
  · exfalso
    cases a <;> simp only [Bus.step] at h <;> (try exact h1 rfl) <;> (try exact h2 _ rfl) <;>
      (first
        | (split at h <;> first | contradiction | (cases h; rw [h'] at h''; cases h''))
        | skip)
  · rw [h', h'']; simp

theorem good_init : Good init := by
  refine ⟨?_, ?_, ?_, ?_, ?_, ?_, ?_⟩ <;> simp [init]

theorem good_step {s s' : St} {a : Act} (h : Good s) (hs : step s a = .to s') : Good s' := by
  cases a with
  | main =>
    simp only [step] at hs
    unfold mainStep at hs
    cases hp : s.pc with
    | boot =>
      rw [hp] at hs; simp only at hs
      cases hb : Bus.initial (bs "root") with
      | none => rw [hb] at hs; cases hs
      | some b =>
        rw [hb] at hs; cases hs
        refine ⟨?_, ?_, ?_, ?_, ?_, ?_, ?_⟩
        · rintro b' ⟨⟩; exact ⟨_, b, [], hb, rfl⟩
        · rintro b' ⟨⟩ _
          unfold Bus.initial at hb; split at hb <;> cases hb; rfl
        · simp
        · simp
        · simp
        · simp
        · simp
    | made => rw [hp] at hs; cases hs; exact ⟨h.reach, fun b hb _ => h.off b hb (by rw [hp]; decide), by simp, by simp, by simp, by simp, by simp⟩
    | setup => rw [hp] at hs; cases hs; exact ⟨h.reach, fun b hb _ => h.off b hb (by rw [hp]; decide), by simp, by simp, by simp, by simp, h.state⟩
    | config => rw [hp] at hs; cases hs; exact ⟨h.reach, fun b hb _ => h.off b hb (by rw [hp]; decide), by simp, by simp, by simp, by simp, h.state⟩
    | starting =>
      rw [hp] at hs; simp only at hs
      cases hb : s.bus with
      | none => rw [hb] at hs; cases hs
      | some b =>
        rw [hb] at hs; simp only at hs
        cases hst : Bus.step b .start with
        | none => rw [hst] at hs; cases hs
        | some b' =>
          rw [hst] at hs; cases hs
          refine ⟨?_, by simp, by simp, by simp, by simp, ?_, h.state⟩
          · rintro b1 ⟨⟩; exact bus_step_reach (h.reach b hb) hst
          · rintro b1 ⟨⟩ _ hoff
            simp only [Bus.step, h.off b hb (by rw [hp]; decide), Option.some.injEq] at hst
            rw [← hst] at hoff; cases hoff
    | running =>
      rw [hp] at hs; simp only at hs
      cases hb : s.bus with
      | none => rw [hb] at hs; cases hs
      | some b =>
        rw [hb] at hs; simp only at hs
        cases hph : b.phase <;> rw [hph] at hs <;> cases hs
        refine ⟨by rw [← hb]; exact h.reach, ?_, by simp, by simp, ?_, by simp, h.state⟩
        · rintro b1 ⟨⟩ _; exact hph
        · rintro b1 ⟨⟩ _; exact h.left b hb hp hph
    | returned =>
      rw [hp] at hs; cases hs
      exact ⟨h.reach, fun b hb _ => h.off b hb (by rw [hp]; decide), by simp, by simp, fun b hb _ => h.stopped b hb (.inl hp), by simp, h.state⟩
    | unloaded => rw [hp] at hs; cases hs; exact ⟨by simp, by simp, by simp, by simp, by simp, by simp, h.state⟩
    | released => rw [hp] at hs; cases hs; exact ⟨h.reach, fun b hb _ => h.off b hb (by rw [hp]; decide), fun _ => h.null (.inr (.inl hp)), by simp, by simp, by simp, by simp⟩
    | finished => rw [hp] at hs; cases hs; exact ⟨h.reach, fun b hb _ => h.off b hb (by rw [hp]; decide), by simp, by simp, by simp, by simp, by simp⟩
    | failed => rw [hp] at hs; cases hs; exact ⟨h.reach, fun b hb _ => h.off b hb (by rw [hp]; decide), by simp, by simp, by simp, by simp, by simp⟩
  | raise =>
    simp only [step] at hs
    unfold raiseStep at hs
    cases hp : s.pc <;> rw [hp] at hs <;> cases hs <;>
      exact ⟨h.reach, fun b hb _ => h.off b hb (by rw [hp]; decide), by simp, by simp, by simp, by simp, h.state⟩
  | bus a =>
    simp only [step] at hs
    unfold busStep at hs
    cases hb : s.bus with
    | none => rw [hb] at hs; cases hs
    | some b =>
      rw [hb] at hs
      simp only at hs
      have key : ∀ {a : Bus.Act}, a ≠ .start → (∀ c, a ≠ .run c) → (match Bus.step b a with
          | none => R.no
          | some b' => .to { s with bus := some b' }) = .to s' → Good s' := by
        intro a h1 h2 hs
        cases hst : Bus.step b a with
        | none => rw [hst] at hs; cases hs
        | some b' =>
          rw [hst] at hs; cases hs
          have hph := external_phase (h.reach b hb) h1 h2 hst
          have hrun := fun e => Bus.stopped_step (h.reach b hb).inv h1 e hst
          refine ⟨?_, ?_, ?_, by simp, ?_, ?_, h.state⟩
          · rintro b1 ⟨⟩; exact bus_step_reach (h.reach b hb) hst
          · rintro b1 ⟨⟩ hpc; exact hph.2 (h.off b hb hpc)
          · intro hpc; have := h.null hpc; rw [hb] at this; cases this
          · rintro b1 ⟨⟩ hpc; exact hrun (h.stopped b hb hpc)
          · rintro b1 ⟨⟩ hpc hoff; exact hrun (h.left b hb hpc (hph.1 hoff))
      cases a with
      | start => cases hs
      | run c =>
        simp only at hs
        split at hs <;> try contradiction
        rename_i hp
        cases hst : Bus.step b (.run c) with
        | none => rw [hst] at hs; cases hs
        | some b' =>
          rw [hst] at hs; cases hs
          refine ⟨?_, ?_, ?_, by simp, ?_, ?_, h.state⟩
          · rintro b1 ⟨⟩; exact bus_step_reach (h.reach b hb) hst
          · rintro b1 ⟨⟩ hpc
            simp only at hpc
            split at hpc
            · rename_i hc
              subst hc
              simp only [Bus.step] at hst
              unfold Bus.rstep at hst
              split at hst <;> simp_all
              rw [← hst]
            · exact absurd rfl hpc
          · simp only; split <;> simp
          · simp only; split <;> simp
          · rintro b1 ⟨⟩ hpc hoff
            simp only at hpc
            split at hpc
            · cases hpc
            · rename_i hc; exact run_off hc hst hoff
      | _ => exact key (by simp) (by simp) hs
  | signal =>
    simp only [step] at hs
    unfold signalStep at hs
    split at hs <;> try contradiction
    cases hb : s.bus with
    | none => rw [hb] at hs; cases hs
    | some b =>
      rw [hb] at hs; simp only at hs
      cases hst : Bus.step b (.stop 0) with
      | none => rw [hst] at hs; cases hs
      | some b' =>
        rw [hst] at hs; cases hs
        have hph := external_phase (h.reach b hb) (by simp) (by simp) hst
        have hrun := fun e => Bus.stopped_step (h.reach b hb).inv (by simp) e hst
        refine ⟨?_, ?_, ?_, by simp, ?_, ?_, h.state⟩
        · rintro b1 ⟨⟩; exact bus_step_reach (h.reach b hb) hst
        · rintro b1 ⟨⟩ hpc; exact hph.2 (h.off b hb hpc)
        · intro hpc; have := h.null hpc; rw [hb] at this; cases this
        · rintro b1 ⟨⟩ hpc; exact hrun (h.stopped b hb hpc)
        · rintro b1 ⟨⟩ hpc hoff; exact hrun (h.left b hb hpc (hph.1 hoff))

theorem Reachable.good {s : St} (h : Reachable s) : Good s := induct good_init (fun _ _ _ => good_step) h

/-! ## C64 -/

/-- At no moment of any run, with any number of `Start` and `Stop` calls, is the run state `Stopped`. -/
theorem C64_never_stopped {s : St} (h : Reachable s) : s.runState ≠ .stopped := h.good.state

/-! ## C65 -/

/-- A signal before the `LampPost` object exists, or after the root bus has been released, is undefined. -/
theorem C65_undefined {s : St} (h : Reachable s) (hp : s.pc = .boot ∨ s.pc = .released ∨ s.pc = .finished) :
    step s .signal = .ub := by
  simp only [step, signalStep]
  by_cases hpc : s.pc = .boot
  · rw [if_pos hpc]
  · rw [if_neg hpc, h.good.null hp]

/-- In every other situation with a root bus it is well defined: the signal stops the root bus and does nothing else. -/
theorem C65_defined {s : St} {b : Bus.St} (h : Reachable s) (hb : s.bus = some b) :
    ∃ b', Bus.step b (.stop 0) = some b' ∧ (b'.w.bus 0).running = false ∧ step s .signal = .to { s with bus := some b' } := by
  have h0 := (h.good.reach b hb).inv.wok.root
  have hp : s.pc ≠ .boot := by
    intro hp; have := h.good.null (.inl hp); rw [hb] at this; cases this
  refine ⟨{ b with w := Bus.stop 0 b.w }, by simp [Bus.step, h0], by simp [Bus.stop, Bus.World.setBus], ?_⟩
  simp only [step, signalStep, if_neg hp, hb, Bus.step, h0, if_true]

/-- The bus events among the events of the process. -/
def busActs (as : List Act) : List Bus.Act := as.filterMap (fun a => match a with
  | .bus a => some a
  | .signal => some (.stop 0)
  | _ => none)

theorem exec_bus {s s' : St} {b : Bus.St} {as : List Act} (hm : .main ∉ as) (hb : s.bus = some b) (he : exec s as = .to s') :
    ∃ b', s'.bus = some b' ∧ Bus.exec b (busActs as) = some b' ∧ (∀ a ∈ busActs as, a ≠ .start) := by
  induction as generalizing s b with
  | nil => cases he; exact ⟨b, hb, rfl, by simp [busActs]⟩
  | cons a as ih =>
    simp only [List.mem_cons, not_or] at hm
    simp only [exec] at he
    cases hs : step s a with
    | no => rw [hs] at he; cases he
    | ub => rw [hs] at he; cases he
    | to s1 =>
      rw [hs] at he
      have hcons : ∀ {x : Bus.Act} {b1 : Bus.St}, x ≠ .start → busActs (a :: as) = x :: busActs as → Bus.step b x = some b1 → s1.bus = some b1 →
          ∃ b', s'.bus = some b' ∧ Bus.exec b (busActs (a :: as)) = some b' ∧ (∀ a' ∈ busActs (a :: as), a' ≠ .start) := by
        intro x b1 hx h1 h2 h3
        obtain ⟨b', h4, h5, h6⟩ := ih hm.2 h3 he
        refine ⟨b', h4, ?_, ?_⟩
        · rw [h1, Bus.exec, h2]; exact h5
        · rw [h1]; intro y hy
          rcases List.mem_cons.1 hy with rfl | hy
          · exact hx
          · exact h6 y hy
      cases a with
      | main => exact absurd rfl hm.1
      | raise =>
        have h3 : s1.bus = some b := by
          simp only [step, raiseStep] at hs
          cases hp : s.pc <;> rw [hp] at hs <;> cases hs <;> exact hb
        exact ih hm.2 h3 he
      | bus x =>
        simp only [step, busStep, hb] at hs
        have key : (∀ c, x ≠ .run c) → x ≠ .start → (match Bus.step b x with
            | none => R.no
            | some b' => .to { s with bus := some b' }) = .to s1 →
            ∃ b', s'.bus = some b' ∧ Bus.exec b (busActs (.bus x :: as)) = some b' ∧ (∀ a' ∈ busActs (.bus x :: as), a' ≠ .start) := by
          intro h1 h2 hs
          cases hst : Bus.step b x with
          | none => rw [hst] at hs; cases hs
          | some b' => rw [hst] at hs; cases hs; exact hcons h2 rfl hst rfl
        cases x with
        | start => cases hs
        | run c =>
          simp only at hs
          split at hs <;> try contradiction
          cases hst : Bus.step b (.run c) with
          | none => rw [hst] at hs; cases hs
          | some b' => rw [hst] at hs; cases hs; exact hcons (by simp) rfl hst rfl
        | _ => exact key (by simp) (by simp) hs
      | signal =>
        simp only [step, signalStep, hb] at hs
        split at hs <;> try contradiction
        cases hst : Bus.step b (.stop 0) with
        | none => rw [hst] at hs; cases hs
        | some b' => rw [hst] at hs; cases hs; exact hcons (by simp) rfl hst rfl

theorem exec_runs {s : St} {b b' : Bus.St} (hp : s.pc = .running) (hb : s.bus = some b) {n : Nat}
    (he : Bus.exec b (List.replicate n (.run .go)) = some b') :
    exec s (List.replicate n (.bus (.run .go))) = .to { s with bus := some b' } := by
  induction n generalizing s b with
  | zero => cases he; obtain ⟨pc, r, bb⟩ := s; simp only at hb; subst hb; rfl
  | succ n ih =>
    rw [List.replicate_succ, Bus.exec] at he
    rw [List.replicate_succ, exec]
    cases hs : Bus.step b (.run .go) with
    | none => rw [hs] at he; cases he
    | some b1 =>
      rw [hs] at he
      have hst : step s (.bus (.run .go)) = .to { s with bus := some b1 } := by
        simp only [step, busStep, hb, hp, if_true, hs]
        rw [if_neg (by decide)]
      rw [hst]
      exact ih (s := { s with bus := some b1 }) hp rfl he

/-- A signal while the main thread is inside `mRootBus->Start()`: the main thread, left alone, leaves it, tears down and
returns from `Start`. -/
theorem C65_works_while_running {s : St} (h : Reachable s) (hp : s.pc = .running) :
    ∃ s1, step s .signal = .to s1 ∧ s1.pc = .running ∧
      ∃ n, exec s1 (List.replicate n (.bus (.run .go)) ++ [.main, .main, .main, .main]) = .to ⟨.finished, .running, none⟩ := by
  obtain ⟨b, hb⟩ : ∃ b, s.bus = some b := Option.ne_none_iff_exists'.1 (h.good.has (.inl hp))
  obtain ⟨b1, h1, h2, h3⟩ := C65_defined h hb
  refine ⟨_, h3, hp, ?_⟩
  obtain ⟨n, b2, h4, h5⟩ := Bus.C33_exits b1 (bus_step_reach (h.good.reach b hb) h1) h2
  refine ⟨n, ?_⟩
  rw [exec_append, exec_runs (s := { s with bus := some b1 }) hp rfl h4]
  simp only [exec, step, mainStep, hp, h5]

/-- After such a signal the main thread performs only a bounded number of steps inside `mRootBus->Start()`, the bound
growing with the messages still published; it can always perform one as long as it has not left the loop. -/
theorem C65_works_within_bound {s s1 : St} (h : Reachable s) (hp : s.pc = .running) (hs : step s .signal = .to s1) :
    ∃ A B, ∀ as s2, .main ∉ as → (∀ a ∈ busActs as, a.creates = false) → exec s1 as = .to s2 →
      Bus.runs (busActs as) ≤ A + B * Bus.pushes (busActs as) ∧
      (s2.pc = .running → (∃ c s3, c ≠ .throwing ∧ step s2 (.bus (.run c)) = .to s3 ∧ s3.pc = .running) ∨ ∃ s3, step s2 .main = .to s3 ∧ s3.pc = .returned) := by
  obtain ⟨b, hb⟩ : ∃ b, s.bus = some b := Option.ne_none_iff_exists'.1 (h.good.has (.inl hp))
  obtain ⟨b1, h1, h2, h3⟩ := C65_defined h hb
  rw [hs] at h3; cases h3
  obtain ⟨A, B, hAB⟩ := Bus.C33_exits_within_bound b1 (bus_step_reach (h.good.reach b hb) h1) h2
  refine ⟨A, B, fun as s2 hm hc he => ?_⟩
  obtain ⟨b2, h4, h5, h6⟩ := exec_bus hm rfl he
  refine ⟨hAB _ b2 (fun a ha => ⟨h6 a ha, hc a ha⟩) h5, fun hp2 => ?_⟩
  by_cases hoff : b2.phase = .off
  · right
    exact ⟨{ s2 with pc := .returned }, by simp only [step, mainStep, hp2, h4, hoff], rfl⟩
  · left
    obtain ⟨c, b3, hc, h7⟩ : ∃ c b3, c ≠ Bus.Choice.throwing ∧ Bus.step b2 (.run c) = some b3 := by
      by_cases ha : b2.phase = .asleep
      · exact ⟨.timeout, { b2 with phase := .woken }, by decide, by simp [Bus.step, Bus.rstep, ha]⟩
      · obtain ⟨b3, h⟩ := Bus.run_enabled b2 hoff
        exact ⟨.go, b3, by decide, h⟩
    refine ⟨c, { s2 with bus := some b3, pc := .running }, hc, ?_, rfl⟩
    simp only [step, busStep, h4, hp2, if_true, h7, if_neg hc]

/-- Between construction and `mRootBus->Start()`, or after an exception left `Start`. -/
def Early (s : St) : Prop := s.pc = .made ∨ s.pc = .setup ∨ s.pc = .config ∨ s.pc = .starting ∨ s.pc = .failed

/-- The hierarchy with the root stopped. -/
def hush (b : Bus.St) : Bus.St := { b with w := Bus.stop 0 b.w }

theorem hush_root {b : Bus.St} (h : (b.w.bus 0).running = false) : hush b = b := by
  obtain ⟨w, ph, i, t, p, f, l⟩ := b
  simp only [hush, Bus.St.mk.injEq, and_true]
  obtain ⟨nb, bus, ns, sub, np, pub, q⟩ := w
  simp only [Bus.stop, Bus.World.setBus, Bus.World.mk.injEq, and_true, true_and]
  simp only at h
  funext i
  split
  · subst_vars; rw [← h]
  · rfl

theorem hush_step {b : Bus.St} {a : Bus.Act} (h1 : a ≠ .start) (h2 : ∀ c, a ≠ .run c) :
    Bus.step (hush b) a = (Bus.step b a).map hush := by
  have hch : ∀ i, ((Bus.stop 0 b.w).bus i).children = (b.w.bus i).children := by
    intro i; simp only [Bus.stop, Bus.World.setBus]; split <;> simp_all
  have hat : ∀ i, ((Bus.stop 0 b.w).bus i).attached = (b.w.bus i).attached := by
    intro i; simp only [Bus.stop, Bus.World.setBus]; split <;> simp_all
  have hnm : ∀ i, ((Bus.stop 0 b.w).bus i).name = (b.w.bus i).name := by
    intro i; simp only [Bus.stop, Bus.World.setBus]; split <;> simp_all
  have hcomm : ∀ (w : Bus.World) (i : Nat) (f : Bus.BusSt → Bus.BusSt), (∀ x r, f { x with running := r } = { f x with running := r }) →
      (Bus.stop 0 w).setBus i (f ((Bus.stop 0 w).bus i)) = Bus.stop 0 (w.setBus i (f (w.bus i))) := by
    intro w i f hf
    simp only [Bus.stop, Bus.World.setBus, Bus.World.mk.injEq, and_true, true_and]
    funext j
    by_cases h1 : j = i <;> by_cases h2 : i = 0 <;> by_cases h3 : j = 0 <;> simp_all
  cases a with
  | run c => exact absurd rfl (h2 c)
  | start => exact absurd rfl h1
  | startChild i =>
    simp only [Bus.step, hush, show (Bus.stop 0 b.w).nb = b.w.nb from rfl]
    split
    · rename_i h
      simp only [Option.map, hush, Bus.setRunning, Bus.stop, Bus.World.setBus, Option.some.injEq, Bus.St.mk.injEq, Bus.World.mk.injEq, and_true, true_and]
      funext j
      by_cases h1 : j = i <;> by_cases h2 : i = 0 <;> by_cases h3 : j = 0 <;> simp_all
    · rfl
  | stop i =>
    simp only [Bus.step, hush, show (Bus.stop 0 b.w).nb = b.w.nb from rfl]
    split
    · simp only [Option.map, hush, Bus.stop, Bus.World.setBus, Option.some.injEq, Bus.St.mk.injEq, Bus.World.mk.injEq, and_true, true_and]
      funext j
      by_cases h1 : j = i <;> by_cases h2 : i = 0 <;> by_cases h3 : j = 0 <;> simp_all
    · rfl
  | publish i m =>
    simp only [Bus.step, hush, show (Bus.stop 0 b.w).nb = b.w.nb from rfl, Bus.publishMsg, hat]
    split <;> rfl
  | pubPublish i m =>
    simp only [Bus.step, hush, show (Bus.stop 0 b.w).np = b.w.np from rfl, show (Bus.stop 0 b.w).pub = b.w.pub from rfl,
      Bus.pubPublish, Bus.publishTopic, Bus.publishMsg, hat, hnm]
    split <;> rfl
  | push i =>
    simp only [Bus.step, hush]
    cases b.inflight[i]? <;> rfl
  | notify =>
    by_cases h : 0 < b.toNotify <;> simp [Bus.step, hush, h]
  | createChild i name =>
    simp only [Bus.step, hush, show (Bus.stop 0 b.w).nb = b.w.nb from rfl]
    split
    · rename_i h
      simp only [Option.map, hush, Option.some.injEq, Bus.St.mk.injEq, and_true]
      unfold Bus.createChildBus
      simp only [hch, hat, show (Bus.stop 0 b.w).nb = b.w.nb from rfl]
      split
      · rfl
      · split
        · rfl
        · split
          · rfl
          · simp only [Bus.outcome, Bus.stop, Bus.World.setBus, Bus.World.mk.injEq, and_true, true_and]
            have h0 : b.w.nb ≠ 0 := by omega
            have h0' : ¬ 0 = b.w.nb := by omega
            have h4 : i ≠ b.w.nb := by omega
            funext j
            by_cases h1 : j = i <;> by_cases h2 : i = 0 <;> by_cases h3 : j = 0 <;> by_cases h5 : j = b.w.nb <;> simp_all
    · rfl
  | createSub i topic cb =>
    simp only [Bus.step, hush, show (Bus.stop 0 b.w).nb = b.w.nb from rfl]
    split
    · simp only [Option.map, hush, Option.some.injEq, Bus.St.mk.injEq, and_true]
      simp only [Bus.createSubscriber, Bus.outcome]
      exact hcomm (({ b.w with ns := b.w.ns + 1 } : Bus.World).setSub b.w.ns ⟨topic, cb, i⟩) i
        (fun x => { x with subs := x.subs ++ [b.w.ns] }) (fun _ _ => rfl)
    · rfl
  | createPub i topic =>
    simp only [Bus.step, hush, show (Bus.stop 0 b.w).nb = b.w.nb from rfl]
    split
    · simp only [Option.map, hush, Option.some.injEq, Bus.St.mk.injEq, and_true]
      simp only [Bus.createPublisher, Bus.outcome]
      exact hcomm (({ b.w with np := b.w.np + 1 } : Bus.World).setPub b.w.np ⟨topic, i, true⟩) i
        (fun x => { x with pubs := x.pubs ++ [b.w.np] }) (fun _ _ => rfl)
    · rfl
  | deleteSub i x =>
    simp only [Bus.step, hush, show (Bus.stop 0 b.w).nb = b.w.nb from rfl, show (Bus.stop 0 b.w).ns = b.w.ns from rfl]
    split
    · simp only [Option.map, hush, Option.some.injEq, Bus.St.mk.injEq, and_true]
      simp only [Bus.deleteSubscriber, Bus.outcome]
      exact congrArg (fun w => Bus.World.setSub w x { b.w.sub x with cb := none })
        (hcomm b.w i (fun y => { y with subs := y.subs.filter (fun i => i != x) }) (fun _ _ => rfl))
    · rfl
  | deletePub i x =>
    simp only [Bus.step, hush, show (Bus.stop 0 b.w).nb = b.w.nb from rfl, show (Bus.stop 0 b.w).np = b.w.np from rfl]
    split
    · simp only [Option.map, hush, Option.some.injEq, Bus.St.mk.injEq, and_true]
      simp only [Bus.deletePublisher, Bus.outcome]
      exact congrArg (fun w => Bus.World.setPub w x { b.w.pub x with active := false })
        (hcomm b.w i (fun y => { y with pubs := y.pubs.filter (fun i => i != x) }) (fun _ _ => rfl))
    · rfl
  | setCb i cb =>
    simp only [Bus.step, hush, show (Bus.stop 0 b.w).ns = b.w.ns from rfl]
    split <;> rfl
  | detachOne i =>
    simp only [Bus.step, hush, show (Bus.stop 0 b.w).nb = b.w.nb from rfl]
    split
    · simp only [Option.map, hush, Option.some.injEq, Bus.St.mk.injEq, and_true]
      exact hcomm b.w i (fun y => { y with attached := false }) (fun _ _ => rfl)
    · rfl

theorem hush_start {b : Bus.St} (hoff : b.phase = .off) : Bus.step (hush b) .start = Bus.step b .start := by
  simp only [Bus.step, hush, hoff, Option.some.injEq, Bus.St.mk.injEq, and_true]
  simp only [Bus.setRunning, Bus.stop, Bus.World.setBus, Bus.World.mk.injEq, and_true, true_and]
  funext j
  by_cases h : j = 0 <;> simp [h]

/-- The process with the root stopped. -/
def hushed (s : St) : St := { s with bus := s.bus.map hush }

theorem signal_hushed {s : St} {b : Bus.St} (h : Reachable s) (hb : s.bus = some b) : step s .signal = .to (hushed s) := by
  have h0 := (h.good.reach b hb).inv.wok.root
  have hp : s.pc ≠ .boot := by
    intro hp; have := h.good.null (.inl hp); rw [hb] at this; cases this
  simp only [step, signalStep, if_neg hp, hb, Bus.step, h0, if_true, hushed, Option.map, hush]

theorem Reachable.next {s s' : St} {a : Act} (h : Reachable s) (hs : step s a = .to s') : Reachable s' := by
  obtain ⟨as, he⟩ := h
  exact ⟨as ++ [a], by rw [exec_append, he]; simp [exec, hs]⟩

/-- A step of an early process with and without the root stopped. -/
theorem hushed_step {s s' : St} {a : Act} (h : Reachable s) (he : Early s) (hs : step s a = .to s') :
    step (hushed s) a = .to (hushed s') ∧ Early s' ∨ step (hushed s) a = .to s' := by
  have hpr : s.pc ≠ .running := by rcases he with e | e | e | e | e <;> rw [e] <;> decide
  cases a with
  | main =>
    simp only [step] at hs ⊢
    rcases he with e | e | e | e | e
    · simp only [mainStep, e] at hs; cases hs
      left; exact ⟨by simp only [mainStep, hushed, e], by simp [Early]⟩
    · simp only [mainStep, e] at hs; cases hs
      left; exact ⟨by simp only [mainStep, hushed, e], by simp [Early]⟩
    · simp only [mainStep, e] at hs; cases hs
      left; exact ⟨by simp only [mainStep, hushed, e], by simp [Early]⟩
    · right
      simp only [mainStep, e] at hs
      cases hb : s.bus with
      | none => rw [hb] at hs; cases hs
      | some b =>
        rw [hb] at hs; simp only at hs
        simp only [mainStep, hushed, e, hb, Option.map, hush_start (h.good.off b hb hpr)]
        exact hs
    · simp only [mainStep, e] at hs; cases hs
      left; exact ⟨by simp only [mainStep, hushed, e], by simp [Early]⟩
  | raise =>
    left
    simp only [step] at hs ⊢
    rcases he with e | e | e | e | e <;> simp only [raiseStep, e] at hs <;> cases hs <;>
      exact ⟨by simp only [raiseStep, hushed, e], by simp [Early]⟩
  | bus x =>
    left
    simp only [step, busStep] at hs ⊢
    cases hb : s.bus with
    | none => rw [hb] at hs; cases hs
    | some b =>
      rw [hb] at hs
      simp only [hushed, hb, Option.map]
      have key : (∀ c, x ≠ .run c) → x ≠ .start → (match Bus.step b x with
          | none => R.no
          | some b' => .to { s with bus := some b' }) = .to s' →
          (match Bus.step (hush b) x with
            | none => R.no
            | some b' => .to { s with bus := some b' }) = .to (hushed s') ∧ Early s' := by
        intro h1 h2 hs
        rw [hush_step h2 h1]
        cases hst : Bus.step b x with
        | none => rw [hst] at hs; cases hs
        | some b' => rw [hst] at hs; cases hs; exact ⟨rfl, he⟩
      cases x with
      | start => cases hs
      | run c => simp only [if_neg hpr] at hs; cases hs
      | _ => exact key (by simp) (by simp) hs
  | signal =>
    left
    cases hb : s.bus with
    | none => simp only [step, signalStep, hb] at hs; split at hs <;> cases hs
    | some b =>
      rw [signal_hushed h hb] at hs; cases hs
      have hr := h.next (signal_hushed h hb)
      refine ⟨signal_hushed (b := hush b) hr (by simp [hushed, hb]), he⟩

/-- A signal after construction and before `mRootBus->Start()` is lost: whatever the process does until it has entered
`mRootBus->Start()` and from there on, the outcome is the same without the signal. -/
theorem C65_lost_before_start {s s' : St} {as : List Act} (h : Reachable s) (he : Early s) (hn : s.bus ≠ none)
    (hx : exec s as = .to s') (hpc : ¬ Early s') : exec s (.signal :: as) = .to s' := by
  obtain ⟨b, hb⟩ := Option.ne_none_iff_exists'.1 hn
  rw [exec, signal_hushed h hb]
  clear hb b hn
  show exec (hushed s) as = .to s'
  induction as generalizing s with
  | nil => cases hx; exact absurd he hpc
  | cons a as ih =>
    rw [exec] at hx
    cases hs : step s a with
    | no => rw [hs] at hx; cases hx
    | ub => rw [hs] at hx; cases hx
    | to s1 =>
      rw [hs] at hx
      rw [exec]
      rcases hushed_step h he hs with ⟨h1, h2⟩ | h1
      · rw [h1]; exact ih (h.next hs) h2 hx
      · rw [h1]; exact hx

/-- A signal during the shutdown, before the root bus is released, changes nothing. -/
theorem C65_no_effect_during_teardown {s : St} (h : Reachable s) (hb : s.bus ≠ none) (hp : s.pc = .returned ∨ s.pc = .unloaded) :
    step s .signal = .to s := by
  obtain ⟨b, hb⟩ := Option.ne_none_iff_exists'.1 hb
  rw [signal_hushed h hb]
  obtain ⟨pc, r, bb⟩ := s
  simp only at hb; subst hb
  simp only [hushed, Option.map, hush_root (h.good.stopped b rfl hp)]

theorem bus_kept {s s1 : St} {a : Act} (hs : step s a = .to s1) (h0 : s.bus ≠ none ∨ s.pc = .boot) (hr : s1.pc ≠ .released) :
    s1.bus ≠ none ∨ s1.pc = .boot := by
  cases a with
  | main =>
    simp only [step] at hs
    cases hb : s.bus with
    | none =>
      have hp := h0.resolve_left (fun h => h hb)
      simp only [mainStep, hp] at hs
      split at hs <;> cases hs; simp
    | some b =>
      unfold mainStep at hs
      cases hpc : s.pc <;> simp only [hpc, hb] at hs
      · split at hs <;> cases hs; simp
      · cases hs; simp [hb]
      · cases hs; simp [hb]
      · cases hs; simp [hb]
      · split at hs <;> cases hs; simp
      · split at hs <;> cases hs; simp [hb]
      · cases hs; simp [hb]
      · cases hs; exact absurd rfl hr
      · cases hs; simp [hb]
      · cases hs; simp [hb]
      · cases hs; simp [hb]
  | raise =>
    simp only [step, raiseStep] at hs
    cases hpc : s.pc <;> rw [hpc] at hs h0 <;> cases hs <;> simp_all
  | bus x =>
    simp only [step, busStep] at hs
    cases hb : s.bus with
    | none => rw [hb] at hs; cases hs
    | some b =>
      rw [hb] at hs
      cases x with
      | start => cases hs
      | run c =>
        simp only at hs
        split at hs <;> try contradiction
        split at hs <;> cases hs; simp
      | _ => simp only at hs; split at hs <;> cases hs; simp
  | signal =>
    simp only [step, signalStep] at hs
    split at hs <;> try contradiction
    split at hs <;> try contradiction
    split at hs <;> cases hs; simp

/-- The root bus is there from construction to its release. -/
theorem C65_root_bus_present {s : St} {as : List Act} (h : exec init as = .to s) (hp : s.bus = none) :
    s.pc = .boot ∨ ∃ pre post, as = pre ++ post ∧ ∃ s1, exec init pre = .to s1 ∧ s1.pc = .released := by
  have key : ∀ (as : List Act) (s0 : St), exec s0 as = .to s → s0.bus ≠ none ∨ s0.pc = .boot →
      s.pc = .boot ∨ ∃ pre post, as = pre ++ post ∧ ∃ s1, exec s0 pre = .to s1 ∧ s1.pc = .released := by
    intro as
    induction as with
    | nil => intro s0 he h0; cases he; exact .inl (h0.resolve_left (fun h => h hp))
    | cons a as ih =>
      intro s0 he h0
      rw [exec] at he
      cases hs : step s0 a with
      | no => rw [hs] at he; cases he
      | ub => rw [hs] at he; cases he
      | to s1 =>
        rw [hs] at he
        by_cases hr : s1.pc = .released
        · exact .inr ⟨[a], as, rfl, s1, by simp [exec, hs], hr⟩
        · rcases ih s1 he (bus_kept hs h0 hr) with h | ⟨pre, post, h1, s2, h2, h3⟩
          · exact .inl h
          · exact .inr ⟨a :: pre, post, by rw [h1]; rfl, s2, by simp [exec, hs, h2], h3⟩
  exact key as init h (.inr rfl)

/-! ## C76 -/

/-- A `LampPost` object whose `Start` has returned cannot be started again: no continuation gets past the start of the
root bus, and getting there is undefined. -/
theorem C76_second_start {s s' : St} {as : List Act} (h : Reachable s) (hp : s.pc = .finished) (he : exec s as = .to s') :
    s'.bus = none ∧ s'.pc ≠ .running ∧ (s'.pc = .starting → step s' .main = .ub) := by
  have key : ∀ (as : List Act) (s : St), s.bus = none → (s.pc = .finished ∨ s.pc = .setup ∨ s.pc = .config ∨ s.pc = .starting ∨ s.pc = .failed) →
      exec s as = .to s' → s'.bus = none ∧ (s'.pc = .finished ∨ s'.pc = .setup ∨ s'.pc = .config ∨ s'.pc = .starting ∨ s'.pc = .failed) := by
    intro as
    induction as with
    | nil => intro s h1 h2 he; cases he; exact ⟨h1, h2⟩
    | cons a as ih =>
      intro s h1 h2 he
      rw [exec] at he
      cases hs : step s a with
      | no => rw [hs] at he; cases he
      | ub => rw [hs] at he; cases he
      | to s1 =>
        rw [hs] at he
        have : s1.bus = none ∧ (s1.pc = .finished ∨ s1.pc = .setup ∨ s1.pc = .config ∨ s1.pc = .starting ∨ s1.pc = .failed) := by
          cases a with
          | main =>
            simp only [step, mainStep] at hs
            rcases h2 with h2 | h2 | h2 | h2 | h2 <;> simp only [h2, h1] at hs <;> cases hs <;> simp
          | raise =>
            simp only [step, raiseStep] at hs
            rcases h2 with h2 | h2 | h2 | h2 | h2 <;> simp only [h2] at hs <;> cases hs <;> simp [h1]
          | bus x => simp only [step, busStep, h1] at hs; cases hs
          | signal => simp only [step, signalStep, h1] at hs; split at hs <;> cases hs
        exact ih s1 this.1 this.2 he
  obtain ⟨h1, h2⟩ := key as s (h.good.null (.inr (.inr hp))) (.inl hp) he
  refine ⟨h1, ?_, fun h3 => by simp only [step, mainStep, h3, h1]⟩
  rcases h2 with h2 | h2 | h2 | h2 | h2 <;> rw [h2] <;> decide

/-- If what `Start` does after the bus has stopped throws instead (an `Unload` that throws), the root bus is still there, and a
second `Start` runs it again. -/
theorem C76_start_after_failed_teardown {s : St} (h : Reachable s) (hp : s.pc = .returned) (hb : s.bus ≠ none) :
    ∃ s' b', exec s [.raise, .main, .main, .main, .main] = .to s' ∧ s'.pc = .running ∧ s'.runState = .running ∧
      s'.bus = some b' ∧ (b'.w.bus 0).running = true := by
  cases hs : s.bus with
  | none => exact absurd hs hb
  | some b =>
    have ho := h.good.off b hs (by rw [hp]; decide)
    refine ⟨_, _, by simp only [exec, step, raiseStep, mainStep, hp, hs, Bus.step, ho]; rfl, rfl, rfl, rfl, ?_⟩
    simp [Bus.setRunning, Bus.World.setBus, Bus.World.bus]

/-! ### The hypotheses are met -/

/-- What an observer needs of a process: its outcome, the main thread's position and whether there is a root bus. -/
def look : R → Option (Pc × Bool × Bool)
  | .to s => some (s.pc, s.bus.isSome, match s.bus with | some b => (b.w.bus 0).running | none => false)
  | _ => none

theorem look_to {r : R} {x : Pc × Bool × Bool} (h : look r = some x) : ∃ s, r = .to s ∧ s.pc = x.1 ∧ s.bus.isSome = x.2.1 := by
  cases r with
  | to s => simp only [look, Option.some.injEq] at h; subst h; exact ⟨s, rfl, rfl, rfl⟩
  | _ => cases h

example : ∃ s, Reachable s ∧ s.pc = .boot := ⟨init, ⟨[], rfl⟩, rfl⟩

example : ∃ s, Reachable s ∧ s.pc = .running := by
  obtain ⟨s, h, hp, _⟩ := look_to (r := exec init [.main, .main, .main, .main, .main, .bus (.run .go), .bus (.run .go)])
    (x := (.running, true, true)) (by decide +kernel)
  exact ⟨s, ⟨_, h⟩, hp⟩

example : ∃ s as s', Reachable s ∧ Early s ∧ s.bus ≠ none ∧ exec s as = .to s' ∧ ¬ Early s' ∧ as.length = 3 := by
  obtain ⟨s, h, hp, hb⟩ := look_to (r := exec init [.main, .main]) (x := (.setup, true, false)) (by decide +kernel)
  obtain ⟨s', h', hp', _⟩ := look_to (r := exec init ([.main, .main] ++ [.main, .main, .main])) (x := (.running, true, true)) (by decide +kernel)
  rw [exec_append, h] at h'
  refine ⟨s, _, s', ⟨_, h⟩, .inr (.inl hp), ?_, h', ?_, rfl⟩
  · intro e; rw [e] at hb; cases hb
  · simp [Early, hp']

/-- A whole run: start, a signal while running, end. -/
theorem finished_reachable : ∃ s, Reachable s ∧ s.pc = .finished := by
  obtain ⟨s, h, hp, _⟩ := look_to (r := exec init [.main, .main, .main, .main, .main, .bus (.run .go), .signal, .bus (.run .go),
    .bus (.run .go), .main, .main, .main, .main]) (x := (.finished, false, false)) (by decide +kernel)
  exact ⟨s, ⟨_, h⟩, hp⟩

example : ∃ s, Reachable s ∧ s.bus ≠ none ∧ (s.pc = .returned ∨ s.pc = .unloaded) := by
  obtain ⟨s, h, hp, hb⟩ := look_to (r := exec init [.main, .main, .main, .main, .main, .bus (.run .go), .signal, .bus (.run .go),
    .bus (.run .go), .main]) (x := (.returned, true, false)) (by decide +kernel)
  exact ⟨s, ⟨_, h⟩, (fun e => by rw [e] at hb; cases hb), .inl hp⟩

/-- Starting again after `Start` has returned does reach the null pointer. -/
example : ∃ s, Reachable s ∧ s.pc = .finished ∧ exec s [.main, .main, .main, .main] = .ub := by
  obtain ⟨s, h, hp⟩ := finished_reachable
  refine ⟨s, h, hp, ?_⟩
  simp [exec, step, mainStep, hp, h.good.null (.inr (.inr hp))]

end LP.Proc
