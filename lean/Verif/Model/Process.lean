import Verif.Model.BusConc
import Verif.Model.LampPost
/-!
# The process: main thread, root bus and signals (src/main.cpp, src/lamppost/LampPost.cpp, platformspecific/xnix/Xnix.cpp)

A transition system around the one of `Verif.Model.BusConc`. The thread calling `LampPost::Start` is the bus thread.
Simplifications: what `Setup`, the configuration files and `UnloadTemplates` do to plugins is `Verif.Model.LampPost`;
here they are single steps during which buses may be used by any thread. A signal handler runs as one step (log output
and its lack of async-signal safety are dropped). The constructor is taken to succeed.
-/
namespace LP.Proc

/-- Where the main thread is (main.cpp:21-52). -/
inductive Pc where
  /-- signals are hooked, the global `lamppost` is still null (main.cpp:24-36) -/
  | boot
  /-- constructed, `Start` not called (main.cpp:36-40) -/
  | made
  /-- in `Start`, during `Setup` (LampPost.cpp:113-116) -/
  | setup
  /-- reading the configuration files (LampPost.cpp:118-132) -/
  | config
  /-- about to call `mRootBus->Start()` (LampPost.cpp:134-135) -/
  | starting
  /-- inside `mRootBus->Start()` -/
  | running
  /-- it returned; `Detach` and `UnloadTemplates` under way (LampPost.cpp:136-139, 40-42) -/
  | returned
  /-- templates unloaded, about to release the root bus (LampPost.cpp:44-45) -/
  | unloaded
  /-- root bus released, about to assign the run state (LampPost.cpp:141-143) -/
  | released
  /-- `Start` has returned -/
  | finished
  /-- an exception has left `Start` -/
  | failed
  deriving DecidableEq

/-- The process: `bus` is the hierarchy `mRootBus` points to (`none`: null). Before construction it is `none` as well
(main.cpp:11, LampPost.h:23-28). -/
structure St where
  pc : Pc
  runState : Host.RunState
  bus : Option Bus.St

/-- The outcome of an event (no code of its own: outcomes of main.cpp:14-52). -/
inductive R where
  /-- it cannot happen in this state -/
  | no
  /-- undefined behaviour -/
  | ub
  | to (s : St)

/-- Events (main.cpp:14-52). -/
inductive Act where
  /-- the main thread goes on -/
  | main
  /-- what the main thread is doing throws -/
  | raise
  /-- an event of the bus hierarchy: a step of the bus thread inside `mRootBus->Start()`, or an API call by any thread -/
  | bus (a : Bus.Act)
  /-- SIGINT or SIGTERM arrives (Xnix.cpp:4-16, 19-28) -/
  | signal

/-- The main thread's next step (main.cpp:36-40, LampPost.cpp:6-10, 111-144, 38-46). After `Start` has returned or thrown,
going on means calling `Start` again. -/
def mainStep (s : St) : R :=
  match s.pc with
  | .boot => match Bus.initial (bs "root") with
    | none => .no
    | some b => .to ⟨.made, .unknown, some b⟩
  | .made => .to { s with pc := .setup, runState := .running }
  | .setup => .to { s with pc := .config }
  | .config => .to { s with pc := .starting }
  | .starting => match s.bus with
    | none => .ub
    | some b => match Bus.step b .start with
      | none => .no
      | some b' => .to { s with pc := .running, bus := some b' }
  | .running => match s.bus with
    | none => .no
    | some b => match b.phase with
      | .off => .to { s with pc := .returned }
      | _ => .no
  | .returned => .to { s with pc := .unloaded }
  | .unloaded => .to { s with pc := .released, bus := none }
  | .released => .to { s with pc := .finished, runState := .running }
  | .finished => .to { s with pc := .setup, runState := .running }
  | .failed => .to { s with pc := .setup, runState := .running }

/-- An exception leaves `Setup`, `ReadConfigurationFile` or `Teardown` (LampPost.cpp:116, 126, 139); nothing in `Start`
catches it. -/
def raiseStep (s : St) : R :=
  match s.pc with
  | .setup => .to { s with pc := .failed }
  | .config => .to { s with pc := .failed }
  | .returned => .to { s with pc := .failed }
  | _ => .no

/-- An event of the bus hierarchy. `Run` belongs to the main thread, inside `mRootBus->Start()`; an exception of a
callback leaves it (Bus.cpp:137-169, LampPost.cpp:135). Nobody else calls `Start` of the root. -/
def busStep (s : St) (a : Bus.Act) : R :=
  match s.bus with
  | none => .no
  | some b =>
    match a with
    | .start => .no
    | .run c =>
      if s.pc = .running then
        match Bus.step b (.run c) with
        | none => .no
        | some b' => .to { s with bus := some b', pc := if c = .throwing then .failed else .running }
      else .no
    | a => match Bus.step b a with
      | none => .no
      | some b' => .to { s with bus := some b' }

/-- `HandleShutdownSignal` (main.cpp:14-17) and `LampPost::Stop` (LampPost.cpp:146-150): both pointers are dereferenced
without a check. -/
def signalStep (s : St) : R :=
  if s.pc = .boot then .ub
  else match s.bus with
    | none => .ub
    | some b => match Bus.step b (.stop 0) with
      | none => .no
      | some b' => .to { s with bus := some b' }

/-- One event (see the definitions above) (main.cpp:14-52, LampPost.cpp:6-150). -/
def step (s : St) : Act → R
  | .main => mainStep s
  | .raise => raiseStep s
  | .bus a => busStep s a
  | .signal => signalStep s

/-- A sequence of events (no code of its own: an interleaving of main.cpp:14-52). -/
def exec (s : St) : List Act → R
  | [] => .to s
  | a :: as => match step s a with
    | .to s' => exec s' as
    | r => r

/-- The process before the `LampPost` object exists (main.cpp:11, 24). -/
def init : St := ⟨.boot, .unknown, none⟩

end LP.Proc
