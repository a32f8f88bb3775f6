import Verif.Model.Process
/-!
# Signals by platform (src/lamppost/platformspecific: xnix/Xnix.cpp, windows/Windows.cpp, osx/Osx.cpp)

Around the process of `Verif.Model.Process`. Assumed of the systems: a signal that is not hooked ends the process at once
(the default action of the three signals); `sigaction` without `SA_RESETHAND` keeps the handler; on Windows the runtime
puts back the default before it calls a handler installed by `signal`. Simplification: a handler runs as one step.
-/
namespace LP.Sig

/-- Which of the three files is compiled (CMakeLists.txt:93-103). -/
inductive Platform where
  | xnix
  | windows
  | osx
  deriving DecidableEq

/-- The signals the handlers know (Xnix.cpp:8-9, Windows.cpp:8-10). -/
inductive Sig where
  | int
  | term
  | abrt
  deriving DecidableEq

/-- The process with, for every signal, whether `signalHandler` is installed (Xnix.cpp:26-27, Windows.cpp:22-24). -/
structure St where
  proc : Proc.St
  hooked : Sig → Bool

/-- Events: those of the process but signals (`.ev .signal` cannot happen), and the arrival of a signal
(Xnix.cpp:4-16, Windows.cpp:4-17, main.cpp:14-52). -/
inductive Act where
  | ev (a : Proc.Act)
  | sig (s : Sig)

/-- The outcome of an event (no code of its own: outcomes of main.cpp:14-52). -/
inductive R where
  /-- it cannot happen in this state -/
  | no
  /-- undefined behaviour -/
  | ub
  /-- the default action ends the process, whatever it was doing -/
  | killed
  | to (s : St)

/-- `HookSystemSignals` (Xnix.cpp:19-28, Windows.cpp:20-25, Osx.cpp:4-7). -/
def hook : Platform → Sig → Bool
  | .xnix, .int => true
  | .xnix, .term => true
  | .xnix, .abrt => false
  | .windows, _ => true
  | .osx, _ => false

/-- Whether the handler stays installed when it is called (`sigaction` in Xnix.cpp:26-27, `signal` in
Windows.cpp:22-24). -/
def stays : Platform → Bool
  | .xnix => true
  | .windows => false
  | .osx => true

/-- `signalHandler` (Xnix.cpp:4-16, Windows.cpp:4-17): whether it calls `HandleShutdownSignal`. -/
def handles : Platform → Sig → Bool
  | .xnix, .int => true
  | .xnix, .term => true
  | .xnix, .abrt => false
  | .windows, _ => true
  | .osx, _ => false

/-- A step of the process, seen from here (no code of its own: main.cpp:14-52). -/
def lift (r : Proc.R) (hooked : Sig → Bool) : R :=
  match r with
  | .no => .no
  | .ub => .ub
  | .to s => .to ⟨s, hooked⟩

/-- One event (Xnix.cpp:4-28, Windows.cpp:4-25, Osx.cpp:4-7, main.cpp:14-52). -/
def step (p : Platform) (s : St) : Act → R
  | .ev .signal => .no
  | .ev a => lift (Proc.step s.proc a) s.hooked
  | .sig x =>
    if s.hooked x then
      let hooked := if stays p then s.hooked else fun y => if y = x then false else s.hooked y
      if handles p x then lift (Proc.step s.proc .signal) hooked else .to { s with hooked := hooked }
    else .killed

/-- A sequence of events (no code of its own: an interleaving of main.cpp:14-52). -/
def exec (p : Platform) (s : St) : List Act → R
  | [] => .to s
  | a :: as => match step p s a with
    | .to s' => exec p s' as
    | r => r

/-- After `HookSystemSignals` (main.cpp:24). -/
def init (p : Platform) : St := ⟨Proc.init, hook p⟩

end LP.Sig
