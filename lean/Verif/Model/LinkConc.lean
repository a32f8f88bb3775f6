/-!
# A link under concurrency (src/plugins/link/Link.cpp)

Three threads: the bus thread, which executes the callback of the wildcard subscriber while holding the subscriber mutex
of the link's bus (Bus.cpp:186-193); the worker thread in `Run`; the owner, which calls `Stop` and `Deinitialize`. Each
step is one access to shared state. Which mutex a thread holds follows from where it is.
Simplifications: `zmq_send` with `zmq_msg_send` is one call, so is receiving a whole message; `Publish` never blocks
(C40) and is one step; pointers read outside their mutex (Link.cpp:77, 87) are read atomically (C124: they are not raced on).
-/
namespace LP.LinkConc

/-- The four sockets, each with the mutex of the same name (Link.h:22-33). -/
inductive Sock where
  | serverPub
  | serverSub
  | clientPub
  | clientSub
  deriving DecidableEq

/-- The order in which `Deinitialize` locks the mutexes and closes the sockets (Link.cpp:284-313). -/
def order : Nat → Sock
  | 0 => .serverPub
  | 1 => .serverSub
  | 2 => .clientPub
  | _ => .clientSub

/-- The bus thread (Link.cpp:72-97). -/
inductive BusPc where
  /-- not in the subscriber loop of the link's bus -/
  | away
  /-- in the subscriber loop, before the link's subscriber (Bus.cpp:186-189); other callbacks may run -/
  | before
  /-- in the callback, about to compare the socket with null (Link.cpp:77, 87) -/
  | test (s : Sock)
  /-- about to lock the mutex of the socket (Link.cpp:79, 89) -/
  | want (s : Sock)
  /-- about to send (Link.cpp:81, 91) -/
  | send (s : Sock)
  /-- about to unlock (Link.cpp:85, 95) -/
  | unlock (s : Sock)
  /-- in the subscriber loop after the link's subscriber -/
  | after
  deriving DecidableEq

/-- The worker thread in `Run` (Link.cpp:136-188). -/
inductive WorkPc where
  /-- not started, or `Run` has returned -/
  | gone
  /-- about to test `mShouldRun` (line 138) -/
  | top
  /-- about to lock (lines 161, 175) -/
  | want (s : Sock)
  /-- about to test `mZmqContext` (lines 163, 178) -/
  | check (s : Sock)
  /-- about to call `ReceiveMessage` -/
  | receive (s : Sock)
  /-- a message was received, about to publish it (lines 169-170, 181-182) -/
  | publish (s : Sock)
  /-- about to unlock (lines 172, 184) -/
  | unlock (s : Sock)
  deriving DecidableEq

/-- The owner (Link.cpp:279-323). -/
inductive OwnPc where
  /-- the link is in use -/
  | idle
  /-- in `Stop`, waiting in `join` (PluginInstance.cpp:43-54) -/
  | joining
  /-- in `Deinitialize`, about to lock the subscriber mutex (Link.cpp:281, Bus.h:75-81) -/
  | remove
  /-- holding the first `n` of the four mutexes, about to lock the next (Link.cpp:284-287) -/
  | lock (n : Nat)
  /-- about to test `mZmqContext` (line 289) -/
  | context
  /-- about to test and close socket `n` (lines 291, 297, 303, 309 and the calls below them) -/
  | close (n : Nat)
  /-- socket `n` is closed, its pointer not yet cleared (lines 294, 300, 306, 312) -/
  | clear (n : Nat)
  /-- about to call `zmq_ctx_shutdown` and `zmq_ctx_term` (lines 315-319) -/
  | term
  /-- about to clear `mZmqContext` (line 321) -/
  | forget
  /-- still holding the first `n` mutexes, about to unlock the last of them (line 323) -/
  | unlock (n : Nat)
  /-- `Deinitialize` has returned -/
  | done
  deriving DecidableEq

/-- Calls of the ZMQ library as an observer sees them. `useNull`: a send on a null pointer (Link.cpp:244-277,
293-319). -/
inductive Zmq where
  | use (s : Sock)
  | useNull (s : Sock)
  | close (s : Sock)
  | term
  deriving DecidableEq

/-- The shared members, the threads, and the ZMQ calls so far (an observation) (Link.h:24-33). -/
structure St where
  /-- the socket pointer is not null -/
  ptr : Sock → Bool
  /-- `mZmqContext` is not null -/
  ctx : Bool
  /-- the wildcard subscriber is in the list of the bus and has its callback -/
  registered : Bool
  shouldRun : Bool
  bus : BusPc
  worker : WorkPc
  owner : OwnPc
  calls : List Zmq

/-- What can happen (Link.cpp:72-97, 279-323). -/
inductive Act where
  /-- the bus thread enters the subscriber loop of the link's bus with a message -/
  | enter
  /-- a step of the bus thread; `pass`: the message is not one of the link's own (Link.cpp:75) -/
  | bus (pass : Bool)
  /-- a step of the worker thread; `got`: a message was waiting -/
  | worker (got : Bool)
  /-- the owner calls `Stop` -/
  | stop
  /-- the owner calls `Deinitialize`, with or without `Stop` before -/
  | deinitialize
  /-- a step of the owner inside a call -/
  | owner
  deriving DecidableEq

/-- The bus thread holds the subscriber mutex (Bus.cpp:186). -/
def busInLoop : BusPc → Bool
  | .away => false
  | _ => true

/-- The bus thread holds the mutex of socket `s` (Link.cpp:79-85, 89-95). -/
def busHolds (s : Sock) : BusPc → Bool
  | .send t => t == s
  | .unlock t => t == s
  | _ => false

/-- The worker holds the mutex of socket `s` (Link.cpp:161-172, 175-184). -/
def workerHolds (s : Sock) : WorkPc → Bool
  | .check t => t == s
  | .receive t => t == s
  | .publish t => t == s
  | .unlock t => t == s
  | _ => false

/-- How many of the four mutexes the owner holds (Link.cpp:284-323). -/
def ownerHeld : OwnPc → Nat
  | .lock n => n
  | .context => 4
  | .close _ => 4
  | .clear _ => 4
  | .term => 4
  | .forget => 4
  | .unlock n => n
  | _ => 0

/-- The position of a mutex in the order of `Deinitialize` (Link.cpp:284-287). -/
def position : Sock → Nat
  | .serverPub => 0
  | .serverSub => 1
  | .clientPub => 2
  | .clientSub => 3

/-- The owner holds the mutex of socket `s` (Link.cpp:284-287). -/
def ownerHolds (s : Sock) (p : OwnPc) : Bool := decide (position s < ownerHeld p)

/-- After the first block of the callback comes the second (Link.cpp:87), after the second its end. -/
def busNext : Sock → BusPc
  | .serverPub => .test .clientPub
  | _ => .after

/-- After the first block of an iteration comes the second (Link.cpp:174-184), after the second the next iteration. -/
def workNext : Sock → WorkPc
  | .serverSub => .want .clientSub
  | _ => .top

/-- One step of the bus thread (Bus.cpp:181-194, Link.cpp:72-97). -/
def busStep (σ : St) (pass : Bool) : Option St :=
  match σ.bus with
  | .away => none
  | .before =>
    if σ.registered && pass then some { σ with bus := .test .serverPub } else some { σ with bus := .after }
  | .test s => if σ.ptr s then some { σ with bus := .want s } else some { σ with bus := busNext s }
  | .want s =>
    if workerHolds s σ.worker || ownerHolds s σ.owner then none else some { σ with bus := .send s }
  | .send s =>
    some { σ with bus := .unlock s, calls := σ.calls ++ [if σ.ptr s then .use s else .useNull s] }
  | .unlock s => some { σ with bus := busNext s }
  | .after => some { σ with bus := .away }

/-- One step of the worker thread (Link.cpp:136-188, 190-242). -/
def workerStep (σ : St) (got : Bool) : Option St :=
  match σ.worker with
  | .gone => none
  | .top => if σ.shouldRun then some { σ with worker := .want .serverSub } else some { σ with worker := .gone }
  | .want s => if busHolds s σ.bus || ownerHolds s σ.owner then none else some { σ with worker := .check s }
  | .check s => if σ.ctx then some { σ with worker := .receive s } else some { σ with worker := .unlock s }
  | .receive s =>
    if σ.ptr s then
      some { σ with worker := if got then .publish s else .unlock s, calls := σ.calls ++ [.use s] }
    else some { σ with worker := .unlock s }
  | .publish s => some { σ with worker := .unlock s }
  | .unlock s => some { σ with worker := workNext s }

/-- One step of the owner inside `Stop` or `Deinitialize` (PluginInstance.cpp:43-54, Link.cpp:279-323). `zmq_ctx_term`
waits until every socket made from the context is closed (documented); a pointer that is not null is such a socket. -/
def ownerStep (σ : St) : Option St :=
  match σ.owner with
  | .idle => none
  | .joining => if σ.worker = .gone then some { σ with owner := .idle } else none
  | .remove => if busInLoop σ.bus then none else some { σ with registered := false, owner := .lock 0 }
  | .lock n =>
    if busHolds (order n) σ.bus || workerHolds (order n) σ.worker then none
    else some { σ with owner := if n < 3 then .lock (n + 1) else .context }
  | .context => some { σ with owner := if σ.ctx then .close 0 else .unlock 4 }
  | .close n =>
    if σ.ptr (order n) then some { σ with owner := .clear n, calls := σ.calls ++ [.close (order n)] }
    else some { σ with owner := if n < 3 then .close (n + 1) else .term }
  | .clear n =>
    some { σ with ptr := fun s => if s = order n then false else σ.ptr s
                  owner := if n < 3 then .close (n + 1) else .term }
  | .term =>
    if σ.ptr .serverPub || σ.ptr .serverSub || σ.ptr .clientPub || σ.ptr .clientSub then none
    else some { σ with owner := .forget, calls := σ.calls ++ [.term] }
  | .forget => some { σ with ctx := false, owner := .unlock 4 }
  | .unlock n => some { σ with owner := if 1 < n then .unlock (n - 1) else .done }
  | .done => none

/-- One event; `none`: it cannot happen in this state (Link.cpp:72-97, 279-323). -/
def step (σ : St) : Act → Option St
  | .enter => if σ.bus = .away then some { σ with bus := .before } else none
  | .bus pass => busStep σ pass
  | .worker got => workerStep σ got
  | .stop =>
    if σ.owner = .idle then
      if σ.shouldRun then some { σ with shouldRun := false, owner := .joining } else some σ
    else none
  | .deinitialize => if σ.owner = .idle then some { σ with owner := .remove } else none
  | .owner => ownerStep σ

/-- Several events (no code of its own: an interleaving of Link.cpp:72-97 and 279-323). -/
def exec (σ : St) : List Act → Option St
  | [] => some σ
  | a :: as => (step σ a).bind (fun σ' => exec σ' as)

/-- A link after `Initialize` and `Start` (Link.cpp:18-98, PluginInstance.cpp:35-41): `made` tells which sockets exist; none
does without a context. -/
def initial (ctx : Bool) (made : Sock → Bool) : St :=
  ⟨fun s => ctx && made s, ctx, true, true, .away, .top, .idle, []⟩

end LP.LinkConc
