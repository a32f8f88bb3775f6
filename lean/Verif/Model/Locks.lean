/-!
# Mutexes of the bus

Threads that call bus functions, reduced to what matters for blocking: which mutexes they lock and unlock, in which
order, and the bus tree they walk over. Data, conditions and numbers of iterations are left open: every test can go
either way, every loop can run any number of times (the loops over child buses run over the actual children). A
`std::lock_guard` gives its mutex back when its scope is left, also by an exception, so exceptions do not change the
order of lock events and are not shown. Not modelled: bus functions called by destructors of objects captured in
callbacks; destruction of bus objects.
-/
namespace LP.Locks

/-- The mutexes (bus/Bus.h:42-58). Only the root's queue and notifier are used: the publishing function of every bus
is the root's (Bus.cpp:18-26, 75) and `Start` calls `Run` on the root only (Bus.cpp:127-135). -/
inductive Mtx where
  /-- `mNotifierMutex` of the root -/
  | notifier
  /-- `mSubscribersMutex` of bus `b` -/
  | subs (b : Nat)
  /-- `mChildBussesMutex` of bus `b` -/
  | kids (b : Nat)
  /-- `mPublishersMutex` of bus `b` -/
  | pubs (b : Nat)
  /-- `mActionProvidersMutex` of bus `b` -/
  | provs (b : Nat)
  /-- `mActionConsumersMutex` of bus `b` -/
  | cons (b : Nat)
  /-- `mQueueMutex` of the root -/
  | queue
  deriving DecidableEq

/-- Functions of a bus that threads and callbacks call (`Distribute` is private and called by `Run` and itself only)
(Bus.h:92-186). -/
inductive Op where
  | publish
  | createSub (b : Nat)
  | deleteSub (b : Nat)
  | containsSub (b : Nat)
  | createPub (b : Nat)
  | deletePub (b : Nat)
  | containsPub (b : Nat)
  | createProvider (b : Nat)
  | createConsumer (b : Nat)
  | createChild (b : Nat)
  | getChild (b : Nat)
  | detach (b : Nat)
  /-- `Start` of the root bus -/
  | start

/-- What a thread does next (Bus.cpp:46-216, Bus.h:64-88). -/
inductive Instr where
  | lock (m : Mtx)
  | unlock (m : Mtx)
  /-- entry of `Distribute` on bus `b` (Bus.cpp:183) -/
  | visit (b : Nat)
  /-- head of the subscriber loop (Bus.cpp:187) -/
  | subLoop (b : Nat)
  /-- head of the child loop of `Distribute` (Bus.cpp:198) -/
  | kidLoop (b : Nat)
  /-- head of the child loop of `Detach` (Bus.cpp:211) -/
  | detachLoop (b : Nat)
  /-- `mChildBusses[name] = childBus` if the name is free (Bus.cpp:70-78) -/
  | addChild (b : Nat)
  /-- loop condition of `Run` (Bus.cpp:141) -/
  | runTop
  /-- the predicate was evaluated inside `wait_for` (Bus.cpp:143-149) -/
  | runWait
  /-- `wait_for` returned, about to test `mShouldRun` (Bus.cpp:151-154) -/
  | runWoken
  /-- blocked in `wait_for` without holding the notifier mutex; the timeout ends this at the latest -/
  | asleep
  /-- head of the loop over the drained messages (Bus.cpp:164) -/
  | batchLoop
  deriving DecidableEq

open Instr Mtx

/-- A critical section that calls nothing that locks (as in Bus.h:69-72, 78-80, 86-87). -/
def section' (m : Mtx) : List Instr := [lock m, unlock m]

/-- The lock events of the bus functions: publish (Bus.cpp:18-26), `CreateManagedResource`, `DeleteManagedResource`,
`ContainsManagedResource` (Bus.h:64-88) with their callers (Bus.h:102-120, Bus.cpp:107-125), `CreateActionProvider` and
`CreateActionConsumer` (Bus.h:122-172), `CreateChildBus` (Bus.cpp:62-81), `GetChildBus` (Bus.cpp:83-92), `Detach`
(Bus.cpp:206-216), `Start` and `Run` of the root (Bus.cpp:127-169). -/
def code : Op → List Instr
  | .publish => section' queue
  | .createSub b => section' (subs b)
  | .deleteSub b => section' (subs b)
  | .containsSub b => section' (subs b)
  | .createPub b => section' (pubs b)
  | .deletePub b => section' (pubs b)
  | .containsPub b => section' (pubs b)
  | .createProvider b => section' (subs b) ++ section' (pubs b) ++ section' (provs b)
  | .createConsumer b => section' (pubs b) ++ section' (subs b) ++ section' (cons b)
  | .createChild b => [lock (kids b), addChild b, unlock (kids b)]
  | .getChild b => section' (kids b)
  | .detach b => [lock (kids b), detachLoop b, unlock (kids b)]
  | .start => [lock notifier, runTop]

/-- All threads, which thread owns which mutex, and the bus tree (`children b` are the buses in `mChildBusses` of
`b`, numbered in creation order; `nb` buses exist) (Bus.h:41-59). -/
structure St where
  owner : Mtx → Option Nat
  children : Nat → List Nat
  nb : Nat
  threads : List (List Instr)

/-- What is not determined by the modelled state: which way a test goes, and what a callback does (the tests in
Bus.cpp:70, 86, 101, 131, 141, 151, 183, 189 and the callbacks called in line 191). -/
inductive Choice where
  | yes
  | no
  /-- the next matching subscriber's callback is invoked and calls these bus functions -/
  | callback (ops : List Op)

/-- The new code of thread that is at `i` with `k` after it; `none`: the choice does not apply (Bus.cpp:46-216,
Bus.h:64-88). -/
def expand (children : Nat → List Nat) : Instr → List Instr → Choice → Option (List Instr)
  | visit b, k, .yes =>
    some (lock (subs b) :: subLoop b :: unlock (subs b) :: lock (kids b) :: kidLoop b :: unlock (kids b) :: k)
  | visit _, k, .no => some k
  | subLoop _, k, .no => some k
  | subLoop b, k, .callback ops => some (ops.flatMap code ++ subLoop b :: k)
  | kidLoop b, k, .yes => some ((children b).map visit ++ k)
  | detachLoop b, k, .yes => some ((children b).flatMap (fun c => code (.detach c)) ++ k)
  | addChild _, k, .no => some k
  | runTop, k, .yes => some (lock queue :: unlock queue :: runWait :: k)
  | runTop, k, .no => some (unlock notifier :: k)
  | runWait, k, .no =>
    some (unlock notifier :: asleep :: lock notifier :: lock queue :: unlock queue :: runWait :: k)
  | runWait, k, .yes => some (runWoken :: k)
  | runWoken, k, .yes => some (lock queue :: unlock queue :: batchLoop :: k)
  | runWoken, k, .no => some (unlock notifier :: k)
  | asleep, k, .yes => some k
  | batchLoop, k, .yes => some (visit 0 :: batchLoop :: k)
  | batchLoop, k, .no => some (runTop :: k)
  | _, _, _ => none

/-- An event: thread `t` makes a step, or a new thread starts that calls the given functions one after the other
(Bus.h:92-186). -/
inductive Act where
  | step (t : Nat) (c : Choice)
  | spawn (ops : List Op)

/-- `Bus::CreateChildBus` stores the new bus (Bus.cpp:75-76). -/
def addKid (σ : St) (b : Nat) : St :=
  { σ with nb := σ.nb + 1, children := fun i => if i = b then σ.children b ++ [σ.nb] else σ.children i }

/-- Replace the code of a thread (its program counter moves on) (no code of its own: control flow of Bus.cpp:46-216). -/
def St.goto (σ : St) (t : Nat) (k : List Instr) : St := { σ with threads := σ.threads.set t k }

/-- Write the owner of a mutex (`std::mutex::lock`, `unlock`) (the `lock_guard`s of Bus.cpp:21-210 and Bus.h:69-86). -/
def St.own (σ : St) (m : Mtx) (o : Option Nat) : St :=
  { σ with owner := fun m' => if m' = m then o else σ.owner m' }

/-- One event, `none` if it cannot happen. A mutex can be locked when nobody owns it. (Locking a mutex one owns is
undefined by the standard; the implementations block, which is what is modelled.) Child buses are only created on
buses that exist (Bus.cpp:46-216). -/
def step (σ : St) : Act → Option St
  | .spawn ops => some { σ with threads := σ.threads ++ [ops.flatMap code] }
  | .step t c => match σ.threads[t]? with
    | some (lock m :: k) => if σ.owner m = none then some ((σ.goto t k).own m (some t)) else none
    | some (unlock m :: k) => if σ.owner m = some t then some ((σ.goto t k).own m none) else none
    | some (i :: k) => match i, c with
      | addChild b, .yes => if b < σ.nb then some (addKid (σ.goto t k) b) else none
      | _, _ => (expand σ.children i k c).map (σ.goto t)
    | _ => none

/-- The root bus alone, no threads (Bus.cpp:8-27). -/
def start : St := ⟨fun _ => none, fun _ => [], 1, []⟩

end LP.Locks
