import Verif.Model.Signals
import Verif.Prop.Process
/-!
# Signals by platform (C107)
-/
namespace LP.Sig

/-- How often a platform acts on a signal by stopping the bus: `none` any number of times. -/
def allowance : Platform → Sig → Option Nat
  | .xnix, .int => none
  | .xnix, .term => none
  | .xnix, .abrt => some 0
  | .windows, _ => some 1
  | .osx, _ => some 0

/-- `n` arrivals are within the allowance. -/
def Within (p : Platform) (x : Sig) (n : Nat) : Prop := ∀ k, allowance p x = some k → n ≤ k

/-- How often a signal arrives in a run. -/
def arrivals (x : Sig) : List Act → Nat
  | [] => 0
  | .sig y :: as => (if y = x then 1 else 0) + arrivals x as
  | .ev _ :: as => arrivals x as

/-- The run as the process of C65 sees it, where every signal is the same. -/
def plain : List Act → List Proc.Act
  | [] => []
  | .sig _ :: as => .signal :: plain as
  | .ev a :: as => a :: plain as

theorem arrivals_append (x : Sig) (as bs : List Act) : arrivals x (as ++ bs) = arrivals x as + arrivals x bs := by
  induction as with
  | nil => simp [arrivals]
  | cons a as ih => cases a <;> simp [arrivals, ih] <;> omega

/-- What the handlers look like after `n x` arrivals of each signal. -/
def Hooks (p : Platform) (n : Sig → Nat) (s : St) : Prop := ∀ x, s.hooked x = true ↔ Within p x (n x + 1)

theorem hooks_init (p : Platform) : Hooks p (fun _ => 0) (init p) := by
  intro x
  cases p <;> cases x <;> simp [init, hook, Within, allowance]

theorem handles_hooked {p : Platform} {x : Sig} {n : Nat} (h : Within p x (n + 1)) : handles p x = true := by
  cases p <;> cases x <;> simp [handles, Within, allowance] at *

theorem within_mono {p : Platform} {x : Sig} {n : Nat} (h : Within p x (n + 1)) : Within p x n :=
  fun k hk => by have := h k hk; omega

theorem step_sig {p : Platform} {n : Sig → Nat} {s s' : St} {x : Sig} (h : Hooks p n s) (hs : step p s (.sig x) = .to s') :
    Hooks p (fun y => n y + if y = x then 1 else 0) s' ∧ Within p x (n x + 1) ∧ Proc.step s.proc .signal = .to s'.proc := by
  simp only [step] at hs
  by_cases hh : s.hooked x = true
  · have hw := (h x).1 hh
    rw [if_pos hh, if_pos (handles_hooked hw)] at hs
    cases hp : Proc.step s.proc .signal with
    | no => rw [hp] at hs; cases hs
    | ub => rw [hp] at hs; cases hs
    | to q =>
      rw [hp] at hs
      cases hs
      refine ⟨fun y => ?_, hw, rfl⟩
      have hy := h y
      by_cases hxy : y = x
      · subst hxy
        cases p with
        | xnix => cases y <;> simp_all [stays, Within, allowance]
        | windows => simp [stays, Within, allowance]
        | osx => simp [Within, allowance] at hw
      · cases p with
        | xnix => simpa [stays, hxy] using hy
        | windows => simpa [stays, hxy] using hy
        | osx => simpa [stays, hxy] using hy
  · rw [if_neg hh] at hs
    cases hs

theorem step_ev {p : Platform} {s s' : St} {a : Proc.Act} (hs : step p s (.ev a) = .to s') :
    s'.hooked = s.hooked ∧ Proc.step s.proc a = .to s'.proc := by
  cases a with
  | signal => cases hs
  | _ =>
    simp only [step, lift] at hs
    split at hs <;> cases hs
    rename_i q hq
    exact ⟨rfl, hq⟩

theorem exec_all {p : Platform} : ∀ (as : List Act) {n : Sig → Nat} {s s' : St}, Hooks p n s → (∀ x, Within p x (n x)) →
    exec p s as = .to s' → Hooks p (fun x => n x + arrivals x as) s' ∧ (∀ x, Within p x (n x + arrivals x as)) ∧
      Proc.exec s.proc (plain as) = .to s'.proc
  | [], n, s, s', h, hw, he => by
    cases he
    exact ⟨by simpa [arrivals] using h, by simpa [arrivals] using hw, rfl⟩
  | a :: as, n, s, s', h, hw, he => by
    simp only [exec] at he
    cases hs : step p s a with
    | no => rw [hs] at he; cases he
    | ub => rw [hs] at he; cases he
    | killed => rw [hs] at he; cases he
    | to s1 =>
      rw [hs] at he
      cases a with
      | ev a =>
        obtain ⟨h1, h2⟩ := step_ev hs
        have h' : Hooks p n s1 := fun x => by rw [h1]; exact h x
        obtain ⟨k1, k2, k3⟩ := exec_all as h' hw he
        refine ⟨k1, k2, ?_⟩
        simp only [plain, Proc.exec, h2]
        exact k3
      | sig x =>
        obtain ⟨h1, h2, h3⟩ := step_sig h hs
        have hw' : ∀ y, Within p y (n y + if y = x then 1 else 0) := by
          intro y
          by_cases hy : y = x
          · subst hy; simpa using h2
          · simpa [hy] using hw y
        obtain ⟨k1, k2, k3⟩ := exec_all as h1 hw' he
        have e : (fun y => n y + arrivals y (.sig x :: as)) = fun y => (n y + if y = x then 1 else 0) + arrivals y as := by
          funext y
          by_cases hy : y = x
          · subst hy; simp [arrivals]; omega
          · simp [arrivals, hy, Ne.symm hy]
        refine ⟨by rw [e]; exact k1, fun y => ?_, ?_⟩
        · rw [show n y + arrivals y (.sig x :: as) = (n y + if y = x then 1 else 0) + arrivals y as from congrFun e y]
          exact k2 y
        · simp only [plain, Proc.exec, h3]
          exact k3

theorem within_zero (p : Platform) (x : Sig) : Within p x 0 := fun _ _ => Nat.zero_le _

/-- A process that is still there has got no signal more often than its platform allows, and is in the state it would be
in if every signal had been handled: C65 describes it. -/
theorem C107_survivor {p : Platform} {as : List Act} {s : St} (h : exec p (init p) as = .to s) :
    (∀ x, Within p x (arrivals x as)) ∧ Proc.exec Proc.init (plain as) = .to s.proc := by
  obtain ⟨_, h2, h3⟩ := exec_all as (hooks_init p) (fun x => within_zero p x) h
  exact ⟨fun x => by simpa using h2 x, h3⟩

/-- A further signal ends the process at once, without unloading anything, exactly if that is one more than allowed. -/
theorem C107_killed {p : Platform} {as : List Act} {s : St} (h : exec p (init p) as = .to s) (x : Sig) :
    step p s (.sig x) = .killed ↔ ¬ Within p x (arrivals x as + 1) := by
  obtain ⟨h1, _⟩ := exec_all as (hooks_init p) (fun x => within_zero p x) h
  have hx := h1 x
  simp only [Nat.zero_add] at hx
  rw [← hx]
  cases hh : s.hooked x with
  | false => simp [step, hh]
  | true =>
    simp only [step, hh, if_true, not_true, iff_false]
    split
    · unfold lift; split <;> simp
    · simp

/-- Otherwise it does what C65 says of a signal. -/
theorem C107_handled {p : Platform} {as : List Act} {s : St} (h : exec p (init p) as = .to s) (x : Sig)
    (hx : Within p x (arrivals x as + 1)) :
    (step p s (.sig x) = .ub ↔ Proc.step s.proc .signal = .ub) ∧
    ∀ q, (∃ s', step p s (.sig x) = .to s' ∧ s'.proc = q) ↔ Proc.step s.proc .signal = .to q := by
  obtain ⟨h1, _⟩ := exec_all as (hooks_init p) (fun x => within_zero p x) h
  have hh := (h1 x).2 (by simpa using hx)
  simp only [step, hh, if_true, handles_hooked hx]
  cases Proc.step s.proc .signal <;> simp [lift]

/-- On Unix interrupt and termination signals never end the process by themselves, however many arrive. -/
theorem C107_unix {as : List Act} {s : St} (h : exec .xnix (init .xnix) as = .to s) (x : Sig) (hx : x ≠ .abrt) :
    step .xnix s (.sig x) ≠ .killed := by
  rw [Ne, C107_killed h x]
  cases x <;> simp [Within, allowance] at *

/-- On Windows the second signal of a kind ends the process, however far the shutdown begun by the first has come. -/
theorem C107_windows {as : List Act} {s : St} (h : exec .windows (init .windows) as = .to s) (x : Sig)
    (hx : .sig x ∈ as) : step .windows s (.sig x) = .killed := by
  rw [C107_killed h x]
  have key : ∀ as : List Act, .sig x ∈ as → 1 ≤ arrivals x as := by
    intro as
    induction as with
    | nil => intro hm; cases hm
    | cons a as ih =>
      intro hm
      rcases List.mem_cons.1 hm with rfl | hm
      · simp [arrivals]
      · have := ih hm
        cases a <;> simp [arrivals] <;> omega
  have := key as hx
  intro hw
  have := hw 1 rfl
  omega

/-- On macOS every signal ends the process: there is no orderly shutdown. -/
theorem C107_osx {as : List Act} {s : St} (h : exec .osx (init .osx) as = .to s) (x : Sig) :
    step .osx s (.sig x) = .killed := by
  rw [C107_killed h x]
  intro hw
  have := hw 0 rfl
  omega

/-! ## Cases -/

/-- The process up to the running bus. -/
def toRunning : List Act := List.replicate 5 (.ev .main)

/-- What became of a run: where the main thread is, or how it ended. -/
def fate : R → Option (Proc.Pc × Option Bool)
  | .to s => some (s.proc.pc, s.proc.bus.map (fun b => (b.w.bus 0).running))
  | _ => none

/-- The process has ended by the signal (Xnix.cpp:4-28). -/
def gone : R → Bool
  | .killed => true
  | _ => false

example : fate (exec .windows (init .windows) (toRunning ++ [.sig .int])) = some (.running, some false) ∧
    gone (exec .windows (init .windows) (toRunning ++ [.sig .int, .sig .int])) = true ∧
    fate (exec .windows (init .windows) (toRunning ++ [.sig .int, .sig .term])) = some (.running, some false) ∧
    fate (exec .xnix (init .xnix) (toRunning ++ [.sig .int, .sig .int, .sig .int])) = some (.running, some false) ∧
    gone (exec .xnix (init .xnix) (toRunning ++ [.sig .abrt])) = true ∧
    gone (exec .osx (init .osx) (toRunning ++ [.sig .int])) = true := by decide +kernel

end LP.Sig
