import Verif.Model.Bus
/-!
# The bus under concurrency

A transition system: one thread executes `Bus::Run` of the root (the bus thread), any number of other threads, and
the callbacks running on the bus thread, call the bus API. Each step is one atomic event: a critical section of one
mutex, an access to the atomic flag, or a wait/notify event. Simplifications: unsynchronised accesses of
`mPublishMessageFunction` and `mCallback` (data races when a bus is detached or a callback set during use) are taken
to be atomic; `Start` of the root is called by one thread at a time.
-/
namespace LP.Bus

/-- One activation of `Distribute` on the bus thread's call stack (Bus.cpp:181-204). -/
inductive Frame where
  /-- flag tested (line 183), about to lock `mSubscribersMutex` (line 186) -/
  | want (b : Nat)
  /-- inside the subscriber loop, `mSubscribersMutex` of `b` held; `rest` are still to be visited (lines 187-193) -/
  | subs (b : Nat) (rest : List Nat)
  /-- between the two blocks (lines 194-196), no lock of `b` held -/
  | gap (b : Nat)
  /-- inside the child loop, `mChildBussesMutex` of `b` held; `rest` are still to be visited (lines 197-202) -/
  | kids (b : Nat) (rest : List Nat)

/-- Where the bus thread is in `Run` (Bus.cpp:137-169). -/
inductive Phase where
  /-- not inside `Run` -/
  | off
  /-- about to test the loop condition (line 141) -/
  | top
  /-- inside `wait_for`, about to evaluate the predicate (lines 143-149) -/
  | pred
  /-- the predicate was false, the thread is not yet waiting on the condition variable: notifications are lost -/
  | drowsy
  /-- blocked in `wait_for` -/
  | asleep
  /-- `wait_for` returned, about to test `mShouldRun` (lines 151-154) -/
  | woken
  /-- about to lock the queue and take it over (lines 156-162) -/
  | drain
  /-- at the head of the loop over the drained messages (line 164) -/
  | loop (batch : List BMsg)
  /-- inside `Distribute(m)` (line 166); `inCb`: a callback is running; `batch`: messages after `m` -/
  | visit (m : BMsg) (stack : List Frame) (inCb : Bool) (batch : List BMsg)

/-- What became of a message taken up by the loop (Bus.cpp:164-167, 183). -/
inductive Fate where
  /-- `Distribute` found the root running -/
  | distributed
  /-- `Distribute` found the root stopped and did nothing -/
  | skipped
  /-- an exception left `Run` before the loop came to it -/
  | lost
  deriving DecidableEq

/-- One callback invocation as seen by an observer: subscriber, callback, number of the message in publication order,
and the message (Bus.cpp:191, Subscriber.cpp:30). -/
structure Delivery where
  sub : Nat
  cb : Nat
  idx : Nat
  msg : BMsg

/-- The state of a hierarchy under concurrency. `published`, `fates` and `log` are observations (ghost state): all
messages ever enqueued in order, the fates of those that left the queue and are no longer waiting in the batch, and
all callback invocations in order (Bus.h:36-60, Bus.cpp:137-169). -/
structure St where
  w : World
  phase : Phase
  /-- `Publish` calls between the null check (Bus.cpp:101) and the lock of `mQueueMutex` (line 21) -/
  inflight : List BMsg
  /-- `Publish` calls between the unlock (line 23) and `notify_one` (line 25) -/
  toNotify : Nat
  published : List BMsg
  fates : List Fate
  log : List Delivery

/-- The outcomes that are not determined by the state: whether a wait times out or wakes up, whether a callback
returns or throws (Bus.cpp:143-149, 191). -/
inductive Choice where
  | go
  | timeout
  | throwing
  deriving DecidableEq

/-- One step of `Distribute` (Bus.cpp:181-204) of message `m`, number `i`, with the given call stack and no callback
running: the new stack and the callback invoked, if any. -/
def dstep (w : World) (m : BMsg) (i : Nat) : List Frame → List Frame × Option Delivery
  | [] => ([], none)
  | .want b :: st => (.subs b (w.bus b).subs :: st, none)
  | .subs b [] :: st => (.gap b :: st, none)
  | .subs b (s :: rest) :: st =>
    (.subs b rest :: st, (offer w m s).map (fun c => ⟨c.sub, c.cb, i, m⟩))
  | .gap b :: st => (.kids b (w.bus b).children.vals :: st, none)
  | .kids _ [] :: st => (st, none)
  | .kids b (c :: rest) :: st =>
    if (w.bus c).running then (.want c :: .kids b rest :: st, none) else (.kids b rest :: st, none)

/-- One step of the bus thread (Bus.cpp:137-169), `none` if the choice does not apply. -/
def rstep (c : Choice) (σ : St) : Option St :=
  match σ.phase, c with
  | .top, .go => some { σ with phase := if (σ.w.bus 0).running then .pred else .off }
  | .pred, .go =>
    some { σ with phase := if !σ.w.queue.isEmpty || !(σ.w.bus 0).running then .woken else .drowsy }
  | .drowsy, .go => some { σ with phase := .asleep }
  | .asleep, .go => some { σ with phase := .pred }        -- spurious wake-up
  | .asleep, .timeout => some { σ with phase := .woken }
  | .woken, .go => some { σ with phase := if (σ.w.bus 0).running then .drain else .off }
  | .drain, .go => some { σ with w := { σ.w with queue := [] }, phase := .loop σ.w.queue }
  | .loop [], .go => some { σ with phase := .top }
  | .loop (m :: batch), .go =>
    if (σ.w.bus 0).running then
      some { σ with phase := .visit m [.want 0] false batch, fates := σ.fates ++ [.distributed] }
    else some { σ with phase := .loop batch, fates := σ.fates ++ [.skipped] }
  | .visit _ [] false batch, .go => some { σ with phase := .loop batch }
  | .visit m (f :: st) false batch, .go =>
    match dstep σ.w m (σ.fates.length - 1) (f :: st) with
    | (st', none) => some { σ with phase := .visit m st' false batch }
    | (st', some d) => some { σ with phase := .visit m st' true batch, log := σ.log ++ [d] }
  | .visit m st true batch, .go => some { σ with phase := .visit m st false batch }
  | .visit _ _ true batch, .throwing =>
    some { σ with phase := .off, fates := σ.fates ++ batch.map (fun _ => .lost) }
  | _, _ => none

/-- `mSubscribersMutex` of `b` is held by the bus thread (Bus.cpp:186). -/
def holdsSubs (b : Nat) : Phase → Bool
  | .visit _ st _ _ => st.any (fun f => match f with | .subs b' _ => b' == b | _ => false)
  | _ => false

/-- `mChildBussesMutex` of `b` is held by the bus thread (Bus.cpp:197). -/
def holdsKids (b : Nat) : Phase → Bool
  | .visit _ st _ _ => st.any (fun f => match f with | .kids b' _ => b' == b | _ => false)
  | _ => false

/-- API calls of other threads and of callbacks. The object numbers must denote existing objects (Bus.h:92-186; see
the constructors). -/
inductive Act where
  /-- one step of the bus thread -/
  | run (c : Choice)
  /-- `Start` of the root by a thread that becomes the bus thread (Bus.cpp:127-135) -/
  | start
  /-- `Start` of a child bus -/
  | startChild (b : Nat)
  /-- `Stop` -/
  | stop (b : Nat)
  /-- the null check of `Publish(message)` on bus `b` (Bus.cpp:99-105) -/
  | publish (b : Nat) (m : BMsg)
  /-- the null checks of `Publisher::Publish` (Publisher.cpp:20-26) and of the bus -/
  | pubPublish (p : Nat) (d : Tree)
  /-- one of the started `Publish` calls locks the queue and appends (Bus.cpp:20-23) -/
  | push (i : Nat)
  /-- one of the completed ones calls `notify_one` (Bus.cpp:25) -/
  | notify
  | createChild (b : Nat) (name : Str)
  | createSub (b : Nat) (topic : Str) (cb : Option Nat)
  | createPub (b : Nat) (topic : Str)
  | deleteSub (b : Nat) (s : Nat)
  | deletePub (b : Nat) (p : Nat)
  | setCb (s : Nat) (cb : Option Nat)
  /-- the assignment of `Detach` on one bus (Bus.cpp:208); a call of `Detach` performs this and `stop` for every bus
  of the subtree, in some interleaving with other threads -/
  | detachOne (b : Nat)

/-- The state after an API function that returned or threw (no code of its own: the calls of Bus.h:92-186). -/
def outcome {α : Type} (w : World) : Res World α → World
  | .ok _ w' => w'
  | .throw _ w' => w'
  | _ => w

/-- One event; `none` if it cannot happen in this state (a mutex is held by the bus thread, or no such object)
(Bus.cpp:62-216; see the functions called). -/
def step (σ : St) : Act → Option St
  | .run c => rstep c σ
  | .start => match σ.phase with
    | .off => some { σ with w := setRunning 0 σ.w, phase := .top }
    | _ => none
  | .startChild b => if 0 < b ∧ b < σ.w.nb then some { σ with w := setRunning b σ.w } else none
  | .stop b => if b < σ.w.nb then some { σ with w := Bus.stop b σ.w } else none
  | .publish b m =>
    if b < σ.w.nb then some { σ with inflight := σ.inflight ++ (publishMsg b m σ.w).toList } else none
  | .pubPublish p d =>
    if p < σ.w.np then some { σ with inflight := σ.inflight ++ (Bus.pubPublish p d σ.w).toList } else none
  | .push i => match σ.inflight[i]? with
    | none => none
    | some m => some { σ with w := Bus.push m σ.w, inflight := σ.inflight.eraseIdx i
                              toNotify := σ.toNotify + 1, published := σ.published ++ [m] }
  | .notify =>
    if 0 < σ.toNotify then
      some { σ with toNotify := σ.toNotify - 1
                    phase := match σ.phase with | .asleep => .pred | p => p }
    else none
  | .createChild b name =>
    if b < σ.w.nb ∧ holdsKids b σ.phase = false then
      some { σ with w := outcome σ.w (createChildBus b name σ.w) } else none
  | .createSub b topic cb =>
    if b < σ.w.nb ∧ holdsSubs b σ.phase = false then
      some { σ with w := outcome σ.w (createSubscriber b topic cb σ.w) } else none
  | .createPub b topic =>
    if b < σ.w.nb then some { σ with w := outcome σ.w (createPublisher b topic σ.w) } else none
  | .deleteSub b s =>
    if b < σ.w.nb ∧ s < σ.w.ns ∧ holdsSubs b σ.phase = false then
      some { σ with w := outcome σ.w (deleteSubscriber b (some s) σ.w) } else none
  | .deletePub b p =>
    if b < σ.w.nb ∧ p < σ.w.np then
      some { σ with w := outcome σ.w (deletePublisher b (some p) σ.w) } else none
  | .setCb s cb => if s < σ.w.ns then some { σ with w := setCallback s cb σ.w } else none
  | .detachOne b => if b < σ.w.nb then some { σ with w := Bus.detachOne b σ.w } else none

/-- A hierarchy that was just created (Bus.cpp:8-27). -/
def initial (name : Str) : Option St :=
  match newRoot name with
  | .error _ => none
  | .ok w => some ⟨w, .off, [], 0, [], [], []⟩

/-- Execute a sequence of events (no code of its own: an interleaving of the events of `Act`, Bus.h:92-186). -/
def exec (σ : St) : List Act → Option St
  | [] => some σ
  | a :: as => match step σ a with
    | none => none
    | some σ' => exec σ' as

end LP.Bus
