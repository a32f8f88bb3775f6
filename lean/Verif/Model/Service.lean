import Verif.Model.Process
/-!
# The Windows service (src/lamppost/platformspecific/windows/service/Service.cpp)

Three threads: the one in `Service::Main`/`Init`, the one running `LampPost::Start` (here the main thread of
`Verif.Model.Process`), and the dispatcher thread that calls the control handler.

Simplifications. Installation, removal and the text for the event log are in `Verif.Model.Installer`; the user interface
message (Service.cpp:27-39) is left out: it only calls the operating system. Exit code, wait
hint and service type, which the code keeps constant or which nothing depends on, are left out. The two threads write
`mStatus` without a lock, which C++ calls a data race; the model gives it the meaning of an interleaving in which
filling in the structure is one step and `SetServiceStatus` another.

Assumptions about Windows: a stop control is delivered only when the last status sent accepts it; the handler runs in
the thread that called `StartServiceCtrlDispatcher` and is not called again before it has returned; that function
returns when the service is in the state STOPPED.
-/
namespace LP.Svc

/-- `dwCurrentState` (Service.cpp:173, 191, 197, 205, 257). -/
inductive Phase where
  | startPending
  | running
  | stopPending
  | stopped
  deriving DecidableEq, Repr

/-- The fields of `mStatus` that `ReportStatus` sets and the model keeps (Service.cpp:224-244). -/
structure Status where
  phase : Phase
  accepts : Bool
  checkpoint : Nat
  deriving DecidableEq, Repr

/-- Where the thread in `Service::Main` is. A name ending in `S` is the moment between filling in `mStatus` and
`SetServiceStatus` (Service.cpp:151-248). -/
inductive Pc where
  /-- about to register the control handler (Service.cpp:157-160) and, if that succeeds, to report START_PENDING (Service.cpp:173) -/
  | enter
  | enterS
  /-- `Main` has returned because the control handler could not be registered (Service.cpp:162-166) -/
  | refused
  /-- about to create the event (Service.cpp:183-187) -/
  | create
  /-- there is none: about to report STOPPED (Service.cpp:189-194) -/
  | noEvent
  | noEventS
  /-- about to report RUNNING (Service.cpp:197) -/
  | ready
  | readyS
  /-- about to start the thread (Service.cpp:199) -/
  | spawn
  /-- about to ask `IsStopped` (Service.cpp:201) -/
  | ask
  /-- waiting for the event (Service.cpp:204) -/
  | wait
  /-- about to report STOPPED (Service.cpp:205) -/
  | woken
  | wokenS
  /-- about to call `mLampPost.Stop()` (Service.cpp:210) -/
  | stop
  /-- in `join` (Service.cpp:211) -/
  | join
  /-- `Main` has returned -/
  | over
  deriving DecidableEq, Repr

/-- Where the control handler is (Service.cpp:250-272). -/
inductive Hpc where
  | idle
  /-- about to report STOP_PENDING (Service.cpp:257) -/
  | enter
  | enterS
  /-- about to set the event (Service.cpp:260) -/
  | set
  /-- about to read `mStatus.dwCurrentState` (Service.cpp:261) -/
  | read
  /-- about to report what it has read (Service.cpp:261) -/
  | again (p : Phase)
  | againS
  deriving DecidableEq, Repr

/-- The service process (Service.h:29-65, Service.cpp:221). `started`: the thread of Service.cpp:199 exists;
`next`: the static `dwCheckPoint`; `sent`: what `SetServiceStatus` was called with, oldest first;
`ended`: the process has left `_tmain`. -/
structure St where
  host : Proc.St
  pc : Pc
  handler : Hpc
  started : Bool
  event : Bool
  status : Status
  next : Nat
  sent : List Status
  ended : Bool

/-- The outcome of an event (no code of its own: outcomes of Service.cpp:151-272). -/
inductive R where
  /-- it cannot happen in this state -/
  | no
  /-- undefined behaviour -/
  | ub
  | to (σ : St)

/-- Events (Service.cpp:151-272). -/
inductive Act where
  /-- the thread in `Service::Main` goes on -/
  | main
  /-- `RegisterServiceCtrlHandlerEx` fails -/
  | registerFails
  /-- `CreateEvent` fails -/
  | eventFails
  /-- a stop control arrives -/
  | control
  /-- the control handler goes on -/
  | handler
  /-- `StartServiceCtrlDispatcher` returns and the process ends -/
  | exit
  /-- an event of the host: a step of the thread in `LampPost::Start`, or a use of the buses by any thread -/
  | host (a : Proc.Act)

/-- The first part of `ReportStatus`, filling in `mStatus` (Service.cpp:221-244). -/
def fill (p : Phase) (σ : St) : St :=
  let accepts := if p = .startPending then false else true
  if p = .running ∨ p = .stopped then { σ with status := ⟨p, accepts, 0⟩ }
  else { σ with status := ⟨p, accepts, σ.next⟩, next := σ.next + 1 }

/-- The second part, `SetServiceStatus` (Service.cpp:247). -/
def send (σ : St) : St := { σ with sent := σ.sent ++ [σ.status] }

/-- `mLampPost.IsStopped()` (Service.cpp:201, LampPost.h). -/
def isStopped (σ : St) : Bool := σ.host.runState == .stopped

/-- `mLampPost.Stop()`, the same function as in the signal handler (Service.cpp:210, LampPost.cpp:146-150). -/
def stopHost (σ : St) : R :=
  match Proc.signalStep σ.host with
  | .no => .no
  | .ub => .ub
  | .to s => .to { σ with host := s, pc := .join }

/-- The next step of `Main` and `Init` (Service.cpp:173-176, 179-212). `join` ends when `LampPost::Start` has
returned. -/
def mainStep (σ : St) : R :=
  match σ.pc with
  | .enter => .to { fill .startPending σ with pc := .enterS }
  | .enterS => .to { send σ with pc := .create }
  | .create => .to { σ with pc := .ready }
  | .noEvent => .to { fill .stopped σ with pc := .noEventS }
  | .noEventS => .to { send σ with pc := .over }
  | .ready => .to { fill .running σ with pc := .readyS }
  | .readyS => .to { send σ with pc := .spawn }
  | .spawn => .to { σ with started := true, pc := .ask }
  | .ask => .to { σ with pc := if isStopped σ then .stop else .wait }
  | .wait => if σ.event then .to { σ with pc := .woken } else .no
  | .woken => .to { fill .stopped σ with pc := .wokenS }
  | .wokenS => .to { send σ with pc := .stop }
  | .stop => stopHost σ
  | .join => if σ.host.pc = .finished then .to { σ with pc := .over } else .no
  | .over => .no
  | .refused => .no

/-- `RegisterServiceCtrlHandlerEx` returns null (Service.cpp:162-166); what is written to the event log is `Installer.eventText`. -/
def registerFails (σ : St) : R :=
  if σ.pc = .enter then .to { σ with pc := .refused } else .no

/-- `CreateEvent` returns null (Service.cpp:189). -/
def eventFails (σ : St) : R :=
  if σ.pc = .create then .to { σ with pc := .noEvent } else .no

/-- Windows calls the control handler with SERVICE_CONTROL_STOP (Service.cpp:12-18, 250-255); see the assumptions
above. -/
def control (σ : St) : R :=
  if σ.handler = .idle then
    match σ.sent.getLast? with
    | some s => if s.accepts then .to { σ with handler := .enter } else .no
    | none => .no
  else .no

/-- The next step of the control handler (Service.cpp:255-264). -/
def handlerStep (σ : St) : R :=
  match σ.handler with
  | .idle => .no
  | .enter => .to { fill .stopPending σ with handler := .enterS }
  | .enterS => .to { send σ with handler := .set }
  | .set => .to { σ with event := true, handler := .read }
  | .read => .to { σ with handler := .again σ.status.phase }
  | .again p => .to { fill p σ with handler := .againS }
  | .againS => .to { send σ with handler := .idle }

/-- `StartServiceCtrlDispatcher` returns and so does `_tmain`; the global `service`, and with it `mLampPost`, is destroyed
(windows/service/main.cpp:12, 34-49; LampPost.cpp:24-27). Destroying it while a thread is still inside `LampPost::Start`, or while `Init` is
yet to call `Stop`, is undefined. -/
def exit (σ : St) : R :=
  if σ.handler = .idle ∧ σ.sent.getLast?.map (·.phase) = some .stopped then
    if σ.started = true ∧ (σ.host.pc ≠ .finished ∨ σ.pc = .stop) then .ub
    else .to { σ with ended := true }
  else .no

/-- An event of the host (Service.cpp:199, 214-217). The thread calls `Start` once: it does not go on after
`Start` has returned. `Stop` is called only by `Init`, hence no signal. -/
def hostStep (σ : St) (a : Proc.Act) : R :=
  let go : R := match Proc.step σ.host a with
    | .no => .no
    | .ub => .ub
    | .to s => .to { σ with host := s }
  match a with
  | .signal => .no
  | .bus _ => go
  | _ => if σ.started = true ∧ σ.host.pc ≠ .finished then go else .no

/-- One event. Once an exception has left `Start`, and with it the thread function (Service.cpp:214-217), the process has
been terminated; nor does anything happen after the end of the process. -/
def step (σ : St) (a : Act) : R :=
  if σ.host.pc = .failed ∨ σ.ended = true then .no
  else match a with
    | .main => mainStep σ
    | .registerFails => registerFails σ
    | .eventFails => eventFails σ
    | .control => control σ
    | .handler => handlerStep σ
    | .exit => exit σ
    | .host a => hostStep σ a

/-- A sequence of events (no code of its own: an interleaving of Service.cpp:151-272). -/
def exec (σ : St) : List Act → R
  | [] => .to σ
  | a :: as => match step σ a with
    | .to σ' => exec σ' as
    | r => r

/-- When Windows calls `Main`: the `Service` object with its `LampPost` has been constructed (Service.cpp:20-25,
main.cpp of the service), `mStatus` is not filled in; what it holds is irrelevant, as `Main` fills it in first. -/
def init : R :=
  match Proc.step Proc.init .main with
  | .no => .no
  | .ub => .ub
  | .to s => .to ⟨s, .enter, .idle, false, false, ⟨.startPending, false, 0⟩, 1, [], false⟩

end LP.Svc
