import Verif.Model.LinkConc
import Verif.Model.Service
/-!
# Which members the threads of a link and of the Windows service access

For each place of a thread in `Verif.Model.LinkConc` and `Verif.Model.Service`: the members that the statement there accesses, and whether
it writes. `mShouldRun` is a `std::atomic` (PluginInstance.h:56) and left out, as are members that are not changed after construction, and
`mWildcardSubscriber`, which only the owner uses.
-/
namespace LP.LinkConc

/-- What is shared: the socket pointers and `mZmqContext` (Link.h:24-28), and the sockets themselves, which ZeroMQ does not allow two
threads to use at the same time (every call counts as a write). The context may be used by any thread. -/
inductive Mem where
  | ptr (s : Sock)
  | ctx
  | socket (s : Sock)
  deriving DecidableEq

/-- Accesses in the callback (Link.cpp:77, 81, 87, 91, 244-277). -/
def busAccess : BusPc → List (Mem × Bool)
  | .test s => [(.ptr s, false)]
  | .send s => [(.ptr s, false), (.socket s, true)]
  | _ => []

/-- Accesses in `Run` (Link.cpp:163, 178, 190-242). -/
def workerAccess : WorkPc → List (Mem × Bool)
  | .check _ => [(.ctx, false)]
  | .receive s => [(.ptr s, false), (.socket s, true)]
  | _ => []

/-- Accesses in `Deinitialize` (Link.cpp:289-321). -/
def ownerAccess : OwnPc → List (Mem × Bool)
  | .context => [(.ctx, false)]
  | .close n => [(.ptr (order n), false), (.socket (order n), true)]
  | .clear n => [(.ptr (order n), true)]
  | .term => [(.ctx, false)]
  | .forget => [(.ctx, true)]
  | _ => []

end LP.LinkConc

namespace LP.Svc

/-- What is shared (Service.h:35-39, Service.cpp:221, LampPost.h:23): `mStatus`, the static `dwCheckPoint`, `mStopEventHandle`, `mRootBus` of the
host (`mRunState` is a `std::atomic`). -/
inductive Mem where
  | status
  | checkpoint
  | event
  | rootBus
  deriving DecidableEq

/-- Accesses in `ReportStatus` before `SetServiceStatus` (Service.cpp:221-244): the counter is used unless the state is RUNNING or STOPPED. -/
def fillAccess (p : Phase) : List (Mem × Bool) :=
  if p = .running ∨ p = .stopped then [(.status, true)] else [(.status, true), (.checkpoint, true)]

/-- Accesses of the thread in `Main` (Service.cpp:173, 183, 189-191, 197, 204-205, 210, 247; LampPost.cpp:149). -/
def mainAccess : Pc → List (Mem × Bool)
  | .enter => fillAccess .startPending
  | .create => [(.event, true)]
  | .noEvent => fillAccess .stopped
  | .ready => fillAccess .running
  | .woken => fillAccess .stopped
  | .wait => [(.event, false)]
  | .enterS => [(.status, false)]
  | .noEventS => [(.status, false)]
  | .readyS => [(.status, false)]
  | .wokenS => [(.status, false)]
  | .stop => [(.rootBus, false)]
  | _ => []

/-- Accesses of the control handler (Service.cpp:247, 257-261). -/
def handlerAccess : Hpc → List (Mem × Bool)
  | .enter => fillAccess .stopPending
  | .enterS => [(.status, false)]
  | .set => [(.event, false)]
  | .read => [(.status, false)]
  | .again p => fillAccess p
  | .againS => [(.status, false)]
  | .idle => []

/-- Accesses of the thread in `LampPost::Start` (LampPost.cpp:32, 41, 45, 135). -/
def hostAccess : Proc.Pc → List (Mem × Bool)
  | .setup => [(.rootBus, false)]
  | .starting => [(.rootBus, false)]
  | .returned => [(.rootBus, false)]
  | .unloaded => [(.rootBus, true)]
  | _ => []

end LP.Svc
