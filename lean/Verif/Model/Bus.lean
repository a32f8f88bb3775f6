import Verif.Model.Dict
import Verif.Model.Out
import Verif.Spec.Tree
/-!
# Buses, publishers, subscribers: the sequential API

One hierarchy of buses: bus `0` is the root. Objects are numbered in creation order; a number stands for the
`std::shared_ptr`. Simplifications: buses other than the root are never destroyed (they are owned by the
`mChildBusses` map of their parent); a `Message` carries the tree its datagram denotes (justified by C01, C02, C17).
-/
namespace LP

/-- `utilities::AntMatcher::Matches` (src/lamppost/utilities/AntMatcher.cpp:8-26). -/
def antMatches (pattern expression : Str) : Bool :=
  if expression = pattern then true
  else if pattern = bs "/**/*" then true
  else false

namespace Bus

/-- A `messages::Message` travelling on a bus (messages/Message.h, Message.cpp:6-26). The datagram is given by the
tree it denotes. -/
structure BMsg where
  sender : Str
  topic : Str
  dg : Tree

/-- The members of a `Bus` (bus/Bus.h:39-59) that the bus functions use. `attached` tells whether
`mPublishMessageFunction` is non-null; when it is, it is always the function built by the root's constructor
(Bus.cpp:18-26, passed on in Bus.cpp:75). The queue is a member of the root only and is kept in the state of the
whole hierarchy. Action providers and consumers are in `Verif.Model.Action`. -/
structure BusSt where
  name : Str
  children : Dict Nat
  subs : List Nat
  pubs : List Nat
  running : Bool
  attached : Bool

/-- A `Subscriber` (bus/Subscriber.h, Subscriber.cpp:8-24): its topic and its callback (`none` is the null function;
the number says which function it is). `home` is not a member in the code: it records the bus whose `CreateSubscriber`
made the object, for use in statements only. -/
structure SubSt where
  topic : Str
  cb : Option Nat
  home : Nat

/-- A `Publisher` (bus/Publisher.h, Publisher.cpp:8-18) made by `Bus::CreatePublisher` (Bus.h:102-114): its topic,
the bus the lambda captured, and whether `mPublishingFunction` is still set. -/
structure PubSt where
  topic : Str
  bus : Nat
  active : Bool

/-- All objects of one hierarchy (Bus.h:36-60). -/
structure World where
  nb : Nat
  bus : Nat → BusSt
  ns : Nat
  sub : Nat → SubSt
  np : Nat
  pub : Nat → PubSt
  queue : List BMsg

namespace World
variable (w : World)

/-- Write one bus object (assignments to members, Bus.cpp:62-216). -/
def setBus (b : Nat) (x : BusSt) : World := { w with bus := fun i => if i = b then x else w.bus i }
/-- Write one subscriber object (Subscriber.cpp:34-53). -/
def setSub (s : Nat) (x : SubSt) : World := { w with sub := fun i => if i = s then x else w.sub i }
/-- Write one publisher object (Publisher.cpp:28-31). -/
def setPub (p : Nat) (x : PubSt) : World := { w with pub := fun i => if i = p then x else w.pub i }

end World

/-- A number that stands for no object: the contents are never looked at (Bus.h:41-49; no code). -/
def noBus : BusSt := ⟨[], [], [], [], false, false⟩

/-- `Bus::Bus(name)` (Bus.cpp:8-27): the root bus of a fresh hierarchy. -/
def newRoot (name : Str) : Except Exn World :=
  if name = [] then .error (.argumentNull (bs "name"))
  else .ok { nb := 1, bus := fun i => if i = 0 then ⟨name, [], [], [], false, true⟩ else noBus
             ns := 0, sub := fun _ => ⟨[], none, 0⟩, np := 0, pub := fun _ => ⟨[], 0, false⟩, queue := [] }

/-- `Bus::CreateChildBus` (Bus.cpp:62-81) with the constructor it calls (Bus.cpp:29-44) and `Start` of a non-root bus
(Bus.cpp:127-135). -/
def createChildBus (b : Nat) (name : Str) : M World Nat := fun w =>
  if name = [] then .throw (.argumentNull (bs "name")) w
  else match (w.bus b).children.find name with
    | some _ => .throw (.duplicateKey name) w
    | none =>
      if (w.bus b).attached = false then .throw (.argumentNull (bs "name")) w
      else
        let w1 := { w with nb := w.nb + 1 }
        let w2 := w1.setBus w.nb ⟨name, [], [], [], true, true⟩
        .ok w.nb (w2.setBus b { w.bus b with children := (w.bus b).children.insert name w.nb })

/-- `Bus::GetChildBus` (Bus.cpp:83-92). -/
def getChildBus (b : Nat) (name : Str) : M World Nat := fun w =>
  match (w.bus b).children.find name with
  | none => .throw (.keyNotFound name) w
  | some c => .ok c w

/-- `Bus::CreateSubscriber` (Bus.h:116-120, 64-73) with the `Subscriber` constructors (Subscriber.cpp:8-24). -/
def createSubscriber (b : Nat) (topic : Str) (cb : Option Nat) : M World Nat := fun w =>
  let w1 := { w with ns := w.ns + 1 }
  let w2 := w1.setSub w.ns ⟨topic, cb, b⟩
  .ok w.ns (w2.setBus b { w.bus b with subs := (w.bus b).subs ++ [w.ns] })

/-- `Bus::CreatePublisher` (Bus.h:102-114, 64-73) with the `Publisher` constructor (Publisher.cpp:8-18). -/
def createPublisher (b : Nat) (topic : Str) : M World Nat := fun w =>
  let w1 := { w with np := w.np + 1 }
  let w2 := w1.setPub w.np ⟨topic, b, true⟩
  .ok w.np (w2.setBus b { w.bus b with pubs := (w.bus b).pubs ++ [w.np] })

/-- `Bus::DeleteSubscriber` (Bus.cpp:107-110, Bus.h:75-81) with `Subscriber::Reset` (Subscriber.cpp:34-37): remove
every occurrence from this bus's list, clear the callback. A null pointer is dereferenced by `instance->Reset()`. -/
def deleteSubscriber (b : Nat) (s : Option Nat) : M World Unit := fun w =>
  match s with
  | none => .ub
  | some s =>
    .ok () ((w.setBus b { w.bus b with subs := (w.bus b).subs.filter (fun i => i != s) }).setSub s
      { w.sub s with cb := none })

/-- `Bus::DeletePublisher` (Bus.cpp:112-115, Bus.h:75-81) with `Publisher::Reset` (Publisher.cpp:28-31). -/
def deletePublisher (b : Nat) (p : Option Nat) : M World Unit := fun w =>
  match p with
  | none => .ub
  | some p =>
    .ok () ((w.setBus b { w.bus b with pubs := (w.bus b).pubs.filter (fun i => i != p) }).setPub p
      { w.pub p with active := false })

/-- `Bus::ContainsSubscriber` (Bus.cpp:117-120, Bus.h:83-88). -/
def containsSubscriber (b : Nat) (s : Option Nat) (w : World) : Bool :=
  match s with
  | none => false
  | some s => (w.bus b).subs.contains s

/-- `Bus::ContainsPublisher` (Bus.cpp:122-125, Bus.h:83-88). -/
def containsPublisher (b : Nat) (p : Option Nat) (w : World) : Bool :=
  match p with
  | none => false
  | some p => (w.bus b).pubs.contains p

/-- `Subscriber::SetMessageCallback` / `SetDatagramCallback` (Subscriber.cpp:39-53); a null function passed to
`SetMessageCallback` clears the callback. -/
def setCallback (s : Nat) (cb : Option Nat) (w : World) : World := w.setSub s { w.sub s with cb := cb }

/-- `Bus::Stop` (Bus.cpp:171-174). -/
def stop (b : Nat) (w : World) : World := w.setBus b { w.bus b with running := false }

/-- The assignment at the head of `Bus::Start` (Bus.cpp:127-135); for a non-root bus that is all `Start` does. -/
def setRunning (b : Nat) (w : World) : World := w.setBus b { w.bus b with running := true }

/-- The assignment at the head of `Bus::Detach` (Bus.cpp:206-216). -/
def detachOne (b : Nat) (w : World) : World := w.setBus b { w.bus b with attached := false }

/-- `Bus::Detach` (Bus.cpp:206-216). The fuel bounds the nesting depth of the hierarchy. -/
def detach : Nat → Nat → M World Unit
  | 0, _ => M.outOfFuel
  | n + 1, b => fun w =>
    let w1 := detachOne b w
    M.each (fun (e : Str × Nat) => fun w => detach n e.2 (stop e.2 w)) (w1.bus b).children w1

/-- `Bus::~Bus` of the root (Bus.cpp:46-60). -/
def destroyRoot (fuel : Nat) : M World Unit := fun w =>
  let w1 := detachOne 0 w
  match M.each (fun (e : Str × Nat) => fun w => detach fuel e.2 (stop e.2 w)) (w1.bus 0).children w1 with
  | .ok _ w2 => .ok () (w2.setBus 0 { w2.bus 0 with children := [] })
  | r => r

/-- `Bus::Publish(message)` (Bus.cpp:99-105) with the function built by the root (Bus.cpp:18-26): the message to be
appended to the queue, if any. -/
def publishMsg (b : Nat) (m : BMsg) (w : World) : Option BMsg :=
  if (w.bus b).attached then some m else none

/-- The private `Bus::Publish(topic, datagram)` (Bus.cpp:94-97). -/
def publishTopic (b : Nat) (topic : Str) (d : Tree) (w : World) : Option BMsg :=
  publishMsg b ⟨(w.bus b).name, topic, d⟩ w

/-- `Publisher::Publish` (Publisher.cpp:20-26) of a publisher made by `CreatePublisher` (Bus.h:102-114). -/
def pubPublish (p : Nat) (d : Tree) (w : World) : Option BMsg :=
  if (w.pub p).active then publishTopic (w.pub p).bus (w.pub p).topic d w else none

/-- `mQueuedMessages.push_back(message)` under `mQueueMutex` (Bus.cpp:20-23). -/
def push (m : BMsg) (w : World) : World := { w with queue := w.queue ++ [m] }

/-- One call of a subscriber callback (Subscriber.cpp:30). -/
structure Call where
  sub : Nat
  cb : Nat

/-- One round of the subscriber loop of `Distribute` (Bus.cpp:187-193) with `Subscriber::Receive`
(Subscriber.cpp:26-32): which callback is invoked, if any. -/
def offer (w : World) (m : BMsg) (s : Nat) : Option Call :=
  if antMatches (w.sub s).topic m.topic then (w.sub s).cb.map (Call.mk s) else none

/-- The child loop of `Distribute` (Bus.cpp:198-201), given the recursive call. -/
def distributeKids (f : Nat → Option (List Call)) : Dict Nat → Option (List Call)
  | [] => some []
  | (_, c) :: cs => match f c with
    | none => none
    | some xs => (distributeKids f cs).map (fun ys => xs ++ ys)

/-- `Bus::Distribute` (Bus.cpp:181-204) run without interference and with callbacks that leave the buses alone: the
callbacks invoked, in order. `none` when the recursion bound is exhausted. -/
def distribute (w : World) (m : BMsg) : Nat → Nat → Option (List Call)
  | 0, _ => none
  | n + 1, b =>
    if (w.bus b).running then
      (distributeKids (distribute w m n) (w.bus b).children).map (fun rest => (w.bus b).subs.filterMap (offer w m) ++ rest)
    else some []

end Bus
end LP
