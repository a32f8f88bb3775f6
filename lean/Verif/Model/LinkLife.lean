import Verif.Model.Link
import Verif.Model.Bus
import Verif.Model.Net
/-!
# A link whose life cycle functions are called in any order (src/plugins/link/Link.cpp)

`PluginInstance` (PluginInstance.h:97-99) lets anyone who has a link call `Initialize` and `Deinitialize` any number of times.
Here the ZMQ objects have identities, so that one that is no longer pointed to can be told from one that was closed. One
thread makes the calls, and nothing else happens during a call (the threads are the subject of `Verif.Model.LinkConc`).
-/
namespace LP.LinkLife
open LP.Bus (World BMsg)
open LP.Link (Role)

/-- An open ZMQ socket: its number, the context it was made from, and the address it is bound to, if any (Link.cpp:102-134;
ZMQ is not modelled beyond this). -/
structure Sock where
  id : Nat
  ctx : Nat
  addr : Option Str

/-- The members of a link (Link.h:22-33) with what they point to. `server`, `client`: the roles enabled in the configuration
(C79 tells how they are read), `addr`: the addresses of the server role, for publishing (`true`) and subscribing. `world`: the
bus hierarchy, `bus` the bus of the link. `contexts`, `socks`: the ZMQ objects that exist, `next` the number of the next one.
`alive`: the link has not been destroyed. `sent`: what was sent on which socket (an observation). -/
structure St where
  ident : Str
  bus : Nat
  server : Bool
  client : Bool
  addr : Bool → Str
  world : World
  handle : Option Nat
  context : Option Nat
  ptr : Role → Bool → Option Nat
  contexts : List Nat
  socks : List Sock
  next : Nat
  alive : Bool
  sent : List (Nat × BMsg)

/-- Outcomes: undefined behaviour, waiting for ever, or a new state (no code of its own: outcomes of Link.cpp:18-98, 279-323). -/
inductive R where
  | ub
  | hangs
  | to (σ : St)

/-- What the calls of one `Initialize` may come to: whether `zmq_ctx_new` succeeds, which calls of `zmq_socket` succeed, and which
addresses nobody outside this link has taken (Link.cpp:20, 42-68). -/
structure Luck where
  ctx : Bool
  made : Role → Bool → Bool
  free : Str → Bool

/-- What can happen (Link.cpp:18-98, 279-323, Link.h:44). -/
inductive Act where
  | init (l : Luck)
  | deinit
  /-- the link is destroyed (Link.h:44; the worker thread is the subject of `Verif.Model.Worker`) -/
  | destroy
  /-- the subscriber loop of the link's bus runs with a message (Bus.cpp:186-193) -/
  | message (m : BMsg)
  /-- other code creates a subscriber with a callback of its own (number above 0) on the link's bus -/
  | subscribe (topic : Str) (cb : Nat)
  /-- other code deletes a subscriber; it has no pointer to the link's -/
  | unsubscribe (s : Nat)

/-- Write one of the four socket pointers (Link.cpp:42-45, 64-67, 294-312). -/
def St.point (σ : St) (r : Role) (pub : Bool) (x : Option Nat) : St :=
  { σ with ptr := fun r' p' => if r' = r ∧ p' = pub then x else σ.ptr r' p' }

/-- `CreateZmqSocket` assigned to a pointer (Link.cpp:42, 45, 64, 67, 102-112). Without a context `zmq_socket` fails. -/
def St.open' (σ : St) (l : Luck) (r : Role) (pub : Bool) : St :=
  match σ.context with
  | none => σ.point r pub none
  | some c =>
    if l.made r pub then { σ.point r pub (some σ.next) with socks := σ.socks ++ [⟨σ.next, c, none⟩], next := σ.next + 1 }
    else σ.point r pub none

/-- `BindZmqSocket` (Link.cpp:43, 46, 126-134): an address can be bound if nobody has it; a failure is only logged. -/
def St.bind (σ : St) (l : Luck) (r : Role) (pub : Bool) (a : Str) : St :=
  match σ.ptr r pub with
  | none => σ
  | some i =>
    if l.free a && σ.socks.all (fun s => s.addr != some a) then
      { σ with socks := σ.socks.map (fun s => if s.id = i then { s with addr := some a } else s) }
    else σ

/-- The server role (Link.cpp:42-46). -/
def St.serve (σ : St) (l : Luck) : St :=
  if σ.server then
    (((σ.open' l .server true).bind l .server true (σ.addr true)).open' l .server false).bind l .server false (σ.addr false)
  else σ

/-- The client role (Link.cpp:64-68). Connecting succeeds whether or not there is a server. -/
def St.dial (σ : St) (l : Luck) : St :=
  if σ.client then (σ.open' l .client true).open' l .client false else σ

/-- `zmq_ctx_new` (Link.cpp:20). -/
def St.newContext (σ : St) (l : Luck) : St :=
  if l.ctx then { σ with context := some σ.next, contexts := σ.contexts ++ [σ.next], next := σ.next + 1 }
  else { σ with context := none }

/-- The wildcard subscriber (Link.cpp:71-97); callback number 0 is the link's lambda. -/
def St.listen (σ : St) : R :=
  match Bus.createSubscriber σ.bus Link.everything none σ.world with
  | .ok s w => .to { σ with handle := some s, world := Bus.setCallback s (some 0) w }
  | _ => .ub

/-- `Initialize` (Link.cpp:18-98). -/
def setUp (σ : St) (l : Luck) : R := (((σ.newContext l).serve l).dial l).listen

/-- `zmq_close` on one pointer, if it is not null (Link.cpp:291-313); closing what is not an open socket is undefined. -/
def close (r : Role) (pub : Bool) (σ : St) : R :=
  match σ.ptr r pub with
  | none => .to σ
  | some i =>
    if σ.socks.any (fun s => s.id == i) then .to ({ σ with socks := σ.socks.filter (fun s => s.id != i) }.point r pub none)
    else .ub

/-- One thing after the other (no code of its own: sequencing in Link.cpp:279-323). -/
def R.andThen (r : R) (f : St → R) : R :=
  match r with
  | .ub => .ub
  | .hangs => .hangs
  | .to σ => f σ

/-- `zmq_ctx_shutdown`, `zmq_ctx_term` and clearing the pointer (Link.cpp:315-321): it waits until all sockets made from the
context are closed. -/
def terminate (σ : St) : R :=
  match σ.context with
  | none => .ub
  | some c =>
    if σ.socks.any (fun s => s.ctx == c) then .hangs
    else .to { σ with context := none, contexts := σ.contexts.filter (fun x => x != c) }

/-- `Deinitialize` (Link.cpp:279-323). -/
def tearDown (σ : St) : R :=
  match Bus.deleteSubscriber σ.bus σ.handle σ.world with
  | .ok _ w =>
    let σ1 := { σ with world := w, handle := none }
    match σ1.context with
    | none => .to σ1
    | some _ => ((((close .server true σ1).andThen (close .server false)).andThen (close .client true)).andThen
        (close .client false)).andThen terminate
  | _ => .ub

/-- `SendZmqMessage` on one pointer, if it is not null (Link.cpp:77-95): sending on what is not an open socket is undefined. -/
def send (m : BMsg) (r : Role) (σ : St) : R :=
  match σ.ptr r true with
  | none => .to σ
  | some i => if σ.socks.any (fun s => s.id == i) then .to { σ with sent := σ.sent ++ [(i, m)] } else .ub

/-- The lambda (Link.cpp:73-97) uses `this`. -/
def lambda (m : BMsg) (σ : St) : R :=
  if σ.alive = false then .ub
  else if Net.echo σ.ident m then .to σ
  else (send m .server σ).andThen (send m .client)

/-- The callbacks one after the other (Bus.cpp:187-193); those of other code do nothing here. -/
def callAll (m : BMsg) : List Bus.Call → St → R
  | [], σ => .to σ
  | c :: cs, σ => (if c.cb = 0 then lambda m σ else .to σ).andThen (callAll m cs)

/-- One event (Link.cpp:18-98, 279-323, Bus.cpp:186-193). Using a destroyed link is undefined. -/
def step (σ : St) : Act → R
  | .init l => if σ.alive then setUp σ l else .ub
  | .deinit => if σ.alive then tearDown σ else .ub
  | .destroy => if σ.alive then .to { σ with alive := false } else .ub
  | .message m => callAll m ((σ.world.bus σ.bus).subs.filterMap (Bus.offer σ.world m)) σ
  | .subscribe topic cb => match Bus.createSubscriber σ.bus topic (some (cb + 1)) σ.world with
    | .ok _ w => .to { σ with world := w }
    | _ => .ub
  | .unsubscribe s =>
    if (σ.world.sub s).cb = some 0 then .to σ
    else match Bus.deleteSubscriber σ.bus (some s) σ.world with
      | .ok _ w => .to { σ with world := w }
      | _ => .ub

/-- Several events (no code of its own: a history of calls of PluginInstance.h:97-99 and messages). -/
def exec (σ : St) : List Act → R
  | [] => .to σ
  | a :: as => (step σ a).andThen (fun σ' => exec σ' as)

/-- A link just constructed (Link.cpp:8-16) on bus `b` of a hierarchy none of whose callbacks is the link's. -/
def create (ident : Str) (b : Nat) (server client : Bool) (addr : Bool → Str) (w : World) : St :=
  ⟨ident, b, server, client, addr, w, none, none, fun _ _ => none, [], [], 0, true, []⟩

end LP.LinkLife
