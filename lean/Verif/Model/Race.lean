import Verif.Model.Locks
/-!
# Accesses to shared members of the bus layer

Threads that call functions of `Bus`, `Publisher`, `Subscriber`, `ActionConsumer` and `ActionProvider`, reduced to the
mutexes they lock and the members they read and write. Two accesses of one member by different threads, one of them
writing, with nothing that orders them are a data race, which C++ calls undefined behaviour; the question is which
members can be raced on.

Members that do not appear: `mShouldRun` is atomic; names, topics, `mIsRootBus` and the pointers inside
providers and consumers never change after construction. An object under construction is visible to its creator only.
Data that decides tests and is not needed here (flags, messages, topics) is left open: such a test can go either way.
Simplifications: a callback that throws is not shown (it gives the mutexes back in the same order and leaves out the
remaining accesses); bus objects are not destroyed; an object is handed from one thread to another by means that order
the accesses (that is up to the client). Subscribers and publishers are numbered per bus that created them.
-/
namespace LP.Race
open Locks (Mtx)

/-- Members that several threads may access (Bus.h:41-59, Subscriber.h:21, Publisher.h:22). -/
inductive Loc where
  /-- `mQueuedMessages` of the root (Bus.h:44) -/
  | queue
  /-- `mSubscribers` of bus `b` (Bus.h:54) -/
  | subs (b : Nat)
  /-- `mChildBusses` of bus `b` (Bus.h:41) -/
  | kids (b : Nat)
  /-- `mPublishers` of bus `b` (Bus.h:52) -/
  | pubs (b : Nat)
  /-- `mActionProviders` of bus `b` (Bus.h:57) -/
  | provs (b : Nat)
  /-- `mActionConsumers` of bus `b` (Bus.h:59) -/
  | cons (b : Nat)
  /-- `mPublishMessageFunction` of bus `b` (Bus.h:47) -/
  | forward (b : Nat)
  /-- `mCallback` of subscriber `s` made by bus `b` (Subscriber.h) -/
  | callback (b s : Nat)
  /-- `mPublishingFunction` of publisher `p` made by bus `b` (Publisher.h) -/
  | function (b p : Nat)
  /-- `mOpenRequests` of consumer `c` (ActionConsumer.h) -/
  | requests (c : Nat)
  /-- `mCallback` of provider `r` (ActionProvider.h) -/
  | handler (r : Nat)
  /-- the local variable `response` of the `n`-th call of `Request` (ActionConsumer.cpp:49), which the lambda of that
  call writes on the bus thread -/
  | response (n : Nat)
  deriving DecidableEq

/-- What a subscriber's callback is: a function of the client, the lambda of Bus.h:163-169 or that of Bus.h:137-143. -/
inductive Kind where
  | user
  | response (c : Nat)
  | request (r : Nat)
  deriving DecidableEq

/-- What an access changes, as far as it is tracked (Bus.h:70, 79, Bus.cpp:76, 129, 173, 208, Subscriber.cpp:36, 41,
52, Publisher.cpp:30). -/
inductive Eff where
  | nothing
  /-- `container.push_back(instance)` (Bus.h:70) -/
  | link (b s : Nat)
  /-- `container.remove(instance)` (Bus.h:79) on bus `b` -/
  | unlink (b h s : Nat)
  /-- assignment to `mCallback` of a subscriber (Subscriber.cpp:34-53) -/
  | setCb (b s : Nat) (k : Option Kind)
  /-- `Publisher::Reset` (Publisher.cpp:28-31) -/
  | silence (b p : Nat)
  /-- `mPublishMessageFunction = nullptr` (Bus.cpp:208) -/
  | detach (b : Nat)
  /-- `mChildBusses[name] = childBus` (Bus.cpp:76) -/
  | child (b c : Nat)
  /-- `waiting = false` (ActionConsumer.cpp:59) -/
  | answered (n : Nat)
  deriving DecidableEq

/-- Functions that threads and callbacks call. A subscriber is given by the bus that made it and its number there, and
so is a publisher (Bus.h:92-186, Subscriber.cpp:26-53, Publisher.cpp:20-31). -/
inductive Op where
  /-- `Bus::Publish(message)` -/
  | publish (b : Nat)
  /-- `Publisher::Publish` -/
  | pubPublish (b p : Nat)
  /-- `CreateSubscriber`; `cb`: with a callback -/
  | createSub (b : Nat) (cb : Bool)
  /-- `SetDatagramCallback` or `SetMessageCallback` -/
  | setCb (b s : Nat)
  /-- `DeleteSubscriber` on bus `b` with subscriber `s` of bus `h` -/
  | deleteSub (b h s : Nat)
  | containsSub (b : Nat)
  | createPub (b : Nat)
  /-- `DeletePublisher` on bus `b` with publisher `p` of bus `h` -/
  | deletePub (b h p : Nat)
  | containsPub (b : Nat)
  | createProvider (b : Nat)
  | createConsumer (b : Nat)
  /-- `ActionProvider::Reset` -/
  | resetProvider (r : Nat)
  /-- `ActionProvider::Respond` -/
  | respond (r : Nat)
  /-- `ActionConsumer::RequestAsync` -/
  | requestAsync (c : Nat)
  /-- `ActionConsumer::Request` -/
  | request (c : Nat)
  | createChild (b : Nat)
  | getChild (b : Nat)
  | detach (b : Nat)
  /-- `Start` of the root bus -/
  | start
  deriving DecidableEq

/-- What a thread does next (Bus.cpp:46-216, Bus.h:64-88, Subscriber.cpp:26-53, Publisher.cpp:20-31). -/
inductive Instr where
  | lock (m : Mtx)
  | unlock (m : Mtx)
  | read (l : Loc)
  | write (l : Loc) (e : Eff)
  /-- an atomic access -/
  | atom (e : Eff)
  /-- a function is called -/
  | call (op : Op)
  /-- `Publish(message)` of bus `b` has compared the function with null (Bus.cpp:101) -/
  | forwardTest (b : Nat)
  /-- `Publisher::Publish` has compared the function with null (Publisher.cpp:22) -/
  | publishTest (b p : Nat)
  /-- `CreateChildBus` has looked up the name (Bus.cpp:70) -/
  | childTest (b : Nat)
  /-- the constructor of the child bus (Bus.cpp:75) -/
  | newChild (b : Nat)
  /-- entry of `Detach` on bus `b` (Bus.cpp:206) -/
  | detachAt (b : Nat)
  /-- the child loop of `Detach` (Bus.cpp:211-215) -/
  | detachIter (b : Nat)
  /-- entry of `Distribute` on bus `b` (Bus.cpp:183) -/
  | visit (b : Nat)
  /-- the subscriber loop (Bus.cpp:187-193) -/
  | subIter (b : Nat)
  /-- the loop body for subscriber `s` of bus `b` (Bus.cpp:189) -/
  | receive (b s : Nat)
  /-- `Receive` has compared the callback with null (Subscriber.cpp:28) -/
  | receiveTest (b s : Nat)
  /-- the child loop of `Distribute` (Bus.cpp:198-201) -/
  | kidIter (b : Nat)
  /-- the lambda of the `n`-th call of `Request` tests the atomic `waiting` (ActionConsumer.cpp:56) -/
  | lambdaTest (n : Nat)
  /-- in `wait_for` of the `n`-th call of `Request` (ActionConsumer.cpp:64-68) -/
  | wait (n : Nat)
  /-- loop condition of `Run` (Bus.cpp:141) -/
  | runTop
  /-- the predicate was evaluated inside `wait_for` (Bus.cpp:143-149) -/
  | runWait
  /-- `wait_for` returned, about to test `mShouldRun` (Bus.cpp:151-154) -/
  | runWoken
  /-- blocked in `wait_for` without holding the notifier mutex -/
  | asleep
  /-- head of the loop over the drained messages (Bus.cpp:164) -/
  | batchLoop
  deriving DecidableEq

open Instr Locks.Mtx

/-- All threads, the owners of the mutexes, and as much of the objects as decides which members are accessed.
`subsOf b`: the subscribers in the list of bus `b`; `cb b s`: the callback of subscriber `s` of bus `b`; `active b p`:
the publishing function of publisher `p` of bus `b` is set; `attached b`: `mPublishMessageFunction` is set; `nb`, `ns`,
`np`, `nr`, `nc`, `nf` count buses, subscribers and publishers of a bus, providers, consumers and calls of `Request`;
`provPub`, `consPub`: bus and number of the publisher of a provider or consumer; `waiting n`: the atomic variable of the
`n`-th call of `Request` (Bus.h:41-59, Subscriber.h:21, Publisher.h:22). -/
structure St where
  owner : Mtx → Option Nat
  threads : List (List Instr)
  children : Nat → List Nat
  subsOf : Nat → List Nat
  cb : Nat → Nat → Option Kind
  active : Nat → Nat → Bool
  attached : Nat → Bool
  nb : Nat
  ns : Nat → Nat
  np : Nat → Nat
  nr : Nat
  nc : Nat
  nf : Nat
  provPub : Nat → Nat × Nat
  consPub : Nat → Nat × Nat
  waiting : Nat → Bool

/-- Change a function at one argument (an assignment to one member of one object) (no code of its own: the
assignments listed at `Eff`, e.g. Bus.cpp:208). -/
def upd {α : Type} (f : Nat → α) (i : Nat) (x : α) : Nat → α := fun j => if j = i then x else f j

/-- The effect of an access on the tracked data (see `Eff` for the lines) (Bus.h:70, 79, Bus.cpp:76-208). -/
def St.apply (σ : St) : Eff → St
  | .nothing => σ
  | .link b s => { σ with subsOf := upd σ.subsOf b (σ.subsOf b ++ [s]) }
  | .unlink b h s => if b = h then { σ with subsOf := upd σ.subsOf b ((σ.subsOf b).filter (fun i => i != s)) } else σ
  | .setCb b s k => { σ with cb := upd σ.cb b (upd (σ.cb b) s k) }
  | .silence b p => { σ with active := upd σ.active b (upd (σ.active b) p false) }
  | .detach b => { σ with attached := upd σ.attached b false }
  | .child b c => { σ with children := upd σ.children b (σ.children b ++ [c]) }
  | .answered n => { σ with waiting := upd σ.waiting n false }

/-- Replace the code of a thread (its program counter moves on) (no code of its own: control flow of Bus.cpp:46-216). -/
def St.goto (σ : St) (t : Nat) (k : List Instr) : St := { σ with threads := σ.threads.set t k }

/-- Write the owner of a mutex (`std::mutex::lock`, `unlock`) (the `lock_guard`s of Bus.cpp:21-210 and Bus.h:69-86). -/
def St.own (σ : St) (m : Mtx) (o : Option Nat) : St := { σ with owner := fun m' => if m' = m then o else σ.owner m' }

/-- The call refers to objects that exist (no code: a `shared_ptr` of Bus.h:97-178 a caller has is not null). -/
def valid (σ : St) : Op → Bool
  | .publish b => decide (b < σ.nb)
  | .pubPublish b p => decide (p < σ.np b)
  | .createSub b _ => decide (b < σ.nb)
  | .setCb b s => decide (s < σ.ns b)
  | .deleteSub b h s => decide (b < σ.nb ∧ s < σ.ns h)
  | .containsSub b => decide (b < σ.nb)
  | .createPub b => decide (b < σ.nb)
  | .deletePub b h p => decide (b < σ.nb ∧ p < σ.np h)
  | .containsPub b => decide (b < σ.nb)
  | .createProvider b => decide (b < σ.nb)
  | .createConsumer b => decide (b < σ.nb)
  | .resetProvider r => decide (r < σ.nr)
  | .respond r => decide (r < σ.nr)
  | .requestAsync c => decide (c < σ.nc)
  | .request c => decide (c < σ.nc)
  | .createChild b => decide (b < σ.nb)
  | .getChild b => decide (b < σ.nb)
  | .detach b => decide (b < σ.nb)
  | .start => true

/-- A new subscriber object, not yet in a list (Bus.h:67, Subscriber.cpp:8-24). -/
def St.newSub (σ : St) (b : Nat) (k : Option Kind) : St :=
  { σ with ns := upd σ.ns b (σ.ns b + 1), cb := upd σ.cb b (upd (σ.cb b) (σ.ns b) k) }

/-- A new publisher object, not yet in a list (Bus.h:67, Publisher.cpp:8-18). -/
def St.newPub (σ : St) (b : Nat) : St :=
  { σ with np := upd σ.np b (σ.np b + 1), active := upd σ.active b (upd (σ.active b) (σ.np b) true) }

/-- Push back under a mutex (`CreateManagedResource`, Bus.h:69-70). -/
def pushed (m : Mtx) (l : Loc) (e : Eff) : List Instr := [lock m, write l e, unlock m]

/-- The functions: new objects and the accesses. Publish (Bus.cpp:99-105, Publisher.cpp:20-26), `CreateManagedResource`,
`DeleteManagedResource`, `ContainsManagedResource` (Bus.h:64-88) and their callers (Bus.h:102-120, Bus.cpp:107-125),
setting callbacks (Subscriber.cpp:39-53), `CreateActionProvider`, `CreateActionConsumer` (Bus.h:122-172), `Reset` and
`Respond` of a provider (ActionProvider.cpp:20-32), `RequestAsync` and `Request` (ActionConsumer.cpp:22-71),
`CreateChildBus`, `GetChildBus` (Bus.cpp:62-92), `Detach` (Bus.cpp:206-216), `Start` and `Run` of the root
(Bus.cpp:127-169). -/
def enter (σ : St) : Op → St × List Instr
  | .publish b => (σ, [read (.forward b), forwardTest b])
  | .pubPublish b p => (σ, [read (.function b p), publishTest b p])
  | .createSub b cb => (σ.newSub b (if cb then some .user else none), pushed (subs b) (.subs b) (.link b (σ.ns b)))
  | .setCb b s => (σ, [write (.callback b s) (.setCb b s (some .user))])
  | .deleteSub b h s =>
    (σ, [lock (subs b), write (.subs b) (.unlink b h s), write (.callback h s) (.setCb h s none), unlock (subs b)])
  | .containsSub b => (σ, [lock (subs b), read (.subs b), unlock (subs b)])
  | .createPub b => (σ.newPub b, pushed (pubs b) (.pubs b) .nothing)
  | .deletePub b h p =>
    (σ, [lock (pubs b), write (.pubs b) .nothing, write (.function h p) (.silence h p), unlock (pubs b)])
  | .containsPub b => (σ, [lock (pubs b), read (.pubs b), unlock (pubs b)])
  | .createProvider b =>
    ({ (σ.newSub b none).newPub b with nr := σ.nr + 1, provPub := upd σ.provPub σ.nr (b, σ.np b) },
      pushed (subs b) (.subs b) (.link b (σ.ns b)) ++ pushed (pubs b) (.pubs b) .nothing ++
      pushed (provs b) (.provs b) .nothing ++
      [write (.callback b (σ.ns b)) (.setCb b (σ.ns b) (some (.request σ.nr)))])
  | .createConsumer b =>
    ({ (σ.newSub b none).newPub b with nc := σ.nc + 1, consPub := upd σ.consPub σ.nc (b, σ.np b) },
      pushed (pubs b) (.pubs b) .nothing ++ pushed (subs b) (.subs b) (.link b (σ.ns b)) ++
      pushed (cons b) (.cons b) .nothing ++
      [write (.callback b (σ.ns b)) (.setCb b (σ.ns b) (some (.response σ.nc)))])
  | .resetProvider r => (σ, [write (.handler r) .nothing])
  | .respond r => let (b, p) := σ.provPub r; (σ, [read (.function b p), publishTest b p])
  | .requestAsync c =>
    let (b, p) := σ.consPub c
    (σ, [write (.requests c) .nothing, read (.function b p), publishTest b p])
  | .request c =>
    let (b, p) := σ.consPub c
    ({ σ with nf := σ.nf + 1, waiting := upd σ.waiting σ.nf true },
      [write (.requests c) .nothing, read (.function b p), publishTest b p, wait σ.nf])
  | .createChild b => (σ, [lock (kids b), read (.kids b), childTest b, unlock (kids b)])
  | .getChild b => (σ, [lock (kids b), read (.kids b), write (.kids b) .nothing, unlock (kids b)])
  | .detach b => (σ, [detachAt b])
  | .start => (σ, [lock notifier, runTop])

/-- What is not determined by the tracked data: which way a test goes, and what a callback does (the tests in
Bus.cpp:70, 86, 141, 151, 183, 189 and the callbacks called in Subscriber.cpp:30). -/
inductive Choice where
  | yes
  | no
  /-- the callback is invoked and calls these functions -/
  | run (ops : List Op)
  /-- the response belongs to the `n`-th call of `Request`: its lambda is invoked -/
  | answer (n : Nat)
  deriving DecidableEq

/-- The accesses of a callback of the given kind (Bus.h:137-143, 163-169, ActionConsumer.cpp:73-81,
ActionProvider.cpp:34-37): `find` reads the open requests, `operator[]` and `erase` are modifying functions. A function
object is in use until its call returns, hence the read at the end of a call. -/
def body : Kind → Choice → Option (List Instr)
  | .user, .run ops => some (ops.map call)
  | .response c, .no => some [read (.requests c)]
  | .response c, .run ops =>
    some (read (.requests c) :: write (.requests c) .nothing :: ops.map call ++ [write (.requests c) .nothing])
  | .response c, .answer n =>
    some [read (.requests c), write (.requests c) .nothing, lambdaTest n, write (.requests c) .nothing]
  | .request r, .run ops => some (read (.handler r) :: ops.map call ++ [read (.handler r)])
  | _, _ => none

/-- The new code of a thread that is at `i` with `k` after it; `none`: the choice does not apply (Bus.cpp:46-216,
Bus.h:64-88, Subscriber.cpp:26-53, Publisher.cpp:20-31). -/
def expand (σ : St) : Instr → List Instr → Choice → Option (List Instr)
  | forwardTest b, k, .yes =>
    some (if σ.attached b then
        read (.forward b) :: lock queue :: write .queue .nothing :: unlock queue :: read (.forward b) :: k
      else k)
  | publishTest b p, k, .yes =>
    some (if σ.active b p then
        read (.function b p) :: read (.forward b) :: forwardTest b :: read (.function b p) :: k
      else k)
  | childTest b, k, .yes => some (read (.forward b) :: newChild b :: k)
  | childTest _, k, .no => some k
  | detachAt b, k, .yes =>
    some (write (.forward b) (.detach b) :: lock (kids b) :: detachIter b :: unlock (kids b) :: k)
  | detachIter b, k, .yes =>
    some ((σ.children b).flatMap (fun c => [read (.kids b), detachAt c]) ++ read (.kids b) :: k)
  | visit b, k, .yes =>
    some (lock (subs b) :: subIter b :: unlock (subs b) :: lock (kids b) :: kidIter b :: unlock (kids b) :: k)
  | visit _, k, .no => some k
  | subIter b, k, .yes =>
    some ((σ.subsOf b).flatMap (fun s => [read (.subs b), receive b s]) ++ read (.subs b) :: k)
  | receive b s, k, .yes => some (read (.callback b s) :: receiveTest b s :: k)
  | receive _ _, k, .no => some k
  | receiveTest b s, k, c => match σ.cb b s with
    | none => if c = .yes then some k else none
    | some kind => (body kind c).map (fun code => read (.callback b s) :: code ++ read (.callback b s) :: k)
  | kidIter b, k, .yes =>
    some ((σ.children b).flatMap (fun c => [read (.kids b), visit c]) ++ read (.kids b) :: k)
  | lambdaTest n, k, .yes =>
    some (if σ.waiting n then write (.response n) .nothing :: atom (.answered n) :: k else k)
  | wait n, k, .yes => if σ.waiting n then none else some (read (.response n) :: k)
  | wait n, k, .no => some (read (.response n) :: k)
  | runTop, k, .yes => some (lock queue :: read .queue :: unlock queue :: runWait :: k)
  | runTop, k, .no => some (unlock notifier :: k)
  | runWait, k, .no =>
    some (unlock notifier :: asleep :: lock notifier :: lock queue :: read .queue :: unlock queue :: runWait :: k)
  | runWait, k, .yes => some (runWoken :: k)
  | runWoken, k, .yes => some (lock queue :: write .queue .nothing :: unlock queue :: batchLoop :: k)
  | runWoken, k, .no => some (unlock notifier :: k)
  | asleep, k, .yes => some k
  | batchLoop, k, .yes => some (visit 0 :: batchLoop :: k)
  | batchLoop, k, .no => some (runTop :: k)
  | _, _, _ => none

/-- An event: thread `t` makes a step, or a new thread starts that calls the given functions one after the other
(Bus.h:92-186). -/
inductive Act where
  | step (t : Nat) (c : Choice)
  | spawn (ops : List Op)

/-- One event, `none` if it cannot happen. A mutex can be locked when nobody owns it. The constructor of a child bus
throws if the function it is given is null (Bus.cpp:40-43). -/
def step (σ : St) : Act → Option St
  | .spawn ops => some { σ with threads := σ.threads ++ [ops.map call] }
  | .step t c => match σ.threads[t]? with
    | none => none
    | some [] => none
    | some (i :: k) => match i with
      | lock m => if σ.owner m = none then some ((σ.goto t k).own m (some t)) else none
      | unlock m => if σ.owner m = some t then some ((σ.goto t k).own m none) else none
      | .read _ => some (σ.goto t k)
      | write _ e => some ((σ.goto t k).apply e)
      | atom e => some ((σ.goto t k).apply e)
      | call op => if valid σ op then some ((enter σ op).1.goto t ((enter σ op).2 ++ k)) else none
      | newChild b =>
        some (if σ.attached b then
            { σ with nb := σ.nb + 1, attached := upd σ.attached σ.nb true }.goto t
              (write (.kids b) (.child b σ.nb) :: k)
          else σ.goto t k)
      | i => (expand σ i k c).map (σ.goto t)

/-- The root bus alone, no threads (Bus.cpp:8-27). -/
def start : St :=
  { owner := fun _ => none, threads := [], children := fun _ => [], subsOf := fun _ => [], cb := fun _ _ => none
    active := fun _ _ => false, attached := fun b => b == 0, nb := 1, ns := fun _ => 0, np := fun _ => 0
    nr := 0, nc := 0, nf := 0, provPub := fun _ => (0, 0), consPub := fun _ => (0, 0), waiting := fun _ => false }

/-- Several events (no code of its own: an interleaving of Bus.h:92-186). -/
def exec (σ : St) : List Act → Option St
  | [] => some σ
  | a :: as => (step σ a).bind (fun σ' => exec σ' as)

end LP.Race
