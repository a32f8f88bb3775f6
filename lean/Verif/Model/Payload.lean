import Verif.Model.Transport
/-!
# Datagrams and threads

Several threads use Datagrams and exchange them through the queue of a bus. Variables (parameters, members, locals) are
numbered as in `Model/Cmd`; each belongs to a thread or is an element of the queue. One step is one call of the Datagram
API or one of the three things the bus does with its queue, under `mQueueMutex`.
-/
namespace LP.Payload

/-- Datagrams and variables, and the thread that holds `mQueueMutex` (Bus.h:43). -/
structure St where
  d : DState
  holder : Option Nat

/-- What a thread does next (Bus.cpp:18-26, 156-162, Datagram.h:18-122). -/
inductive Act where
  /-- the constructor of `std::lock_guard` on `mQueueMutex` (Bus.cpp:21, 158) -/
  | lock
  /-- its destructor (Bus.cpp:23, 162) -/
  | unlock
  /-- a call of the Datagram API by client code, or a copy into a parameter on the way to the queue or from it -/
  | api (c : Cmd)
  /-- `mQueuedMessages.push_back(message)` (Bus.cpp:22): element `q` is copied from parameter `x` -/
  | push (q x : Nat)
  /-- `queuedMessages = mQueuedMessages` (Bus.cpp:159), one element: local element `z` is copied from element `q` -/
  | take (z q : Nat)
  /-- `mQueuedMessages.clear()` (Bus.cpp:161), one element -/
  | clear (q : Nat)

/-- The Datagram operation that a step consists of (Bus.cpp:22, 159, 161). -/
def Act.cmd : Act → Option Cmd
  | .lock | .unlock => none
  | .api c => some c
  | .push q x => some (.copyCtor q x)
  | .take z q => some (.copyCtor z q)
  | .clear q => some (.drop q)

/-- One step of thread `t`; `none`: it cannot be done now, or is undefined. A thrown exception is caught by the caller.
Blocking on the mutex is `none`. (Bus.cpp:18-26, 157-162; Datagram.h) -/
def step (t : Nat) (a : Act) (σ : St) : Option St :=
  let go (c : Cmd) : Option St := (Cmd.runAll [c] σ.d).map (fun d => { σ with d := d })
  match a with
  | .lock => if σ.holder = none then some { σ with holder := some t } else none
  | .unlock => if σ.holder = some t then some { σ with holder := none } else none
  | .api c => go c
  | .push q x => if σ.holder = some t then go (.copyCtor q x) else none
  | .take z q => if σ.holder = some t then go (.copyCtor z q) else none
  | .clear q => if σ.holder = some t then go (.drop q) else none

/-- The start: no Datagrams, the mutex is free (no code: before any of Datagram.h:18-26). -/
def init : St := ⟨Cmd.init, none⟩

/-- An interleaving of the steps of all threads (no code of its own: an interleaving of Bus.cpp:18-26, 156-167 and
Datagram.h:18-122). -/
def exec : List (Nat × Act) → St → Option St
  | [], σ => some σ
  | (t, a) :: as, σ => (step t a σ).bind (exec as)

end LP.Payload
