import Verif.Model.Message
import Verif.Model.RawBytes
import Verif.Model.Bus
/-!
# The link plugin (src/plugins/link/Link.cpp)

The ZMQ library is outside the model: a socket is given by the parts waiting on it, and the calls that open and close
sockets are recorded. Log output is dropped. `Codec` stands for the FlatBuffers byte layout,
which is modelled in `Model/Flat`.
-/
namespace LP.Link

/-- The byte layout of an `FBMessage`: `flatBufferBuilder.Finish` with `GetBufferPointer`/`GetSize`
(Message.cpp:39-41), and `GetFBMessage` with the accessors (Message.cpp:46); `none` when reading the bytes as a message
is undefined (the buffer is not verified). -/
structure Codec where
  enc : FBM → List UInt8
  dec : List UInt8 → Option FBM

/-- The two roles of a link (Link.cpp:27-69). -/
inductive Role where
  | server
  | client
  deriving DecidableEq

/-- Calls of the ZMQ library that open and close (Link.cpp:20, 41-46, 63-68, 293-319). `pub` tells the publishing
socket of a role from its subscribing one. -/
inductive Zmq where
  | context
  | socket (role : Role) (pub : Bool)
  | bind (role : Role) (pub : Bool) (endpoint : Str)
  | connect (role : Role) (pub : Bool) (endpoint : Str)
  | subscribe (role : Role) (pref : Str)
  | close (role : Role) (pub : Bool)
  | shutdown
  | term
  deriving DecidableEq

/-- The members of a `Link` (Link.h:22-33): its identifier (Identifiable, PluginInstance.cpp:7) and which of the five ZMQ
pointers are not null. -/
structure St where
  ident : Str
  context : Bool
  serverPub : Bool
  serverSub : Bool
  clientPub : Bool
  clientSub : Bool
  deriving DecidableEq

/-- The constructor (Link.cpp:8-16). -/
def create (ident : Str) : St := ⟨ident, false, false, false, false, false⟩

/-- The value of a `Get<bool>` (Link.cpp:27, 49). -/
def flag : Val → Bool
  | .bool b => b
  | _ => false
/-- The value of a `Get<int>` (Link.cpp:28-29, 50-51). -/
def number : Val → Int32
  | .int i => i
  | _ => 0
/-- The value of a `Get<std::string>` (Link.cpp:30, 52). -/
def text : Val → Str
  | .str s => s
  | _ => []

/-- An endpoint address (Link.cpp:34-35, 56-57). -/
def endpoint (host : Str) (port : Int32) : Str := bs "tcp://" ++ host ++ bs ":" ++ intToStr port.toInt

/-- The part of `Initialize` that opens sockets (Link.cpp:18-69) on the custom configuration `cfg`. `ctx`: `zmq_ctx_new`
succeeds; `made`: which calls of `zmq_socket` succeed (none without a context). Calls on null sockets fail harmlessly and
are recorded like the others. -/
def setUp (cfg : Nat) (ctx : Bool) (made : Role → Bool → Bool) (l : St) : M Heap (St × List Zmq) := do
  let serverOn ← Datagram.pathGet cfg .bool (bs "server-role/enabled") (.bool false)
  let serverPub ← Datagram.pathGet cfg .int (bs "server-role/port-pub") (.int 6967)
  let serverSub ← Datagram.pathGet cfg .int (bs "server-role/port-sub") (.int 6968)
  let host ← Datagram.pathGet cfg .str (bs "server-role/interface") (.str (bs "*"))
  let server := if flag serverOn then
      [.socket .server true, .bind .server true (endpoint (text host) (number serverPub)),
       .socket .server false, .bind .server false (endpoint (text host) (number serverSub)), .subscribe .server (bs "A")]
    else []
  let clientOn ← Datagram.pathGet cfg .bool (bs "client-role/enabled") (.bool false)
  let clientPub ← Datagram.pathGet cfg .int (bs "client-role/port-pub") (.int 6968)
  let clientSub ← Datagram.pathGet cfg .int (bs "client-role/port-sub") (.int 6967)
  let peer ← Datagram.pathGet cfg .str (bs "client-role/server-host") (.str (bs "127.0.0.1"))
  let client := if flag clientOn then
      [.socket .client true, .connect .client true (endpoint (text peer) (number clientPub)),
       .socket .client false, .connect .client false (endpoint (text peer) (number clientSub)), .subscribe .client (bs "A")]
    else []
  pure (⟨l.ident, ctx,
      if flag serverOn then ctx && made .server true else l.serverPub,
      if flag serverOn then ctx && made .server false else l.serverSub,
      if flag clientOn then ctx && made .client true else l.clientPub,
      if flag clientOn then ctx && made .client false else l.clientSub⟩,
    [.context] ++ server ++ client)

/-- The topic of the subscriber (Link.cpp:71). -/
def everything : Str := bs "/**/*"

/-- `SendZmqMessage` (Link.cpp:244-277): the parts handed to the socket. `room`: `zmq_msg_init_size` succeeds.
Simplification: the two send calls succeed; a failure is only logged by the code. -/
def sendZmqMessage (c : Codec) (room : Bool) (m : Msg) : M Heap (List (List UInt8)) := do
  let f ← m.serialize
  let bytes := c.enc f
  pure (if room then [bs "A", bytes] else [])

/-- The callback of the wildcard subscriber (Link.cpp:72-97): what is sent on which role's publishing socket. -/
def onMessage (c : Codec) (room : Bool) (l : St) (m : Msg) : M Heap (List (Role × List (List UInt8))) :=
  if m.wasSentBySender l.ident then pure []
  else do
    let a ← if l.serverPub then do
        let p ← sendZmqMessage c room m
        pure [(Role.server, p)]
      else pure []
    let b ← if l.clientPub then do
        let p ← sendZmqMessage c room m
        pure [(Role.client, p)]
      else pure []
    pure (a ++ b)

/-- A part waiting on a socket: its bytes and whether more parts of the same ZMQ message follow (`ZMQ_RCVMORE`,
Link.cpp:207-223). -/
structure Part where
  data : List UInt8
  more : Bool
  deriving DecidableEq

/-- The loop of `ReceiveMessage` (Link.cpp:203-232) over the parts waiting. `zmq_msg_init` never fails (documented). The
result is `bytes` and what is still waiting. -/
def gather : List Part → Bool → RawBytes.Obj → M RawBytes.Mem (RawBytes.Obj × List Part)
  | [], _, o => pure (o, [])
  | p :: rest, skipped, o => do
    let o' ← if skipped then RawBytes.append o (.ext p.data) else pure o
    if p.more then gather rest true o' else pure (o', rest)

/-- The memory of a process as far as the link uses it: RawDatagrams and byte arrays (RawDatagram.h:37-44,
RawBytes.h:17-18, used by Link.cpp:190-277). -/
structure Memory where
  heap : Heap
  mem : RawBytes.Mem

/-- A computation on RawDatagrams inside the link (Link.cpp:169-170, 236). -/
def onHeap {α : Type} (m : M Heap α) : M Memory α := fun s =>
  match m s.heap with
  | .ok a h => .ok a ⟨h, s.mem⟩
  | .throw e h => .throw e ⟨h, s.mem⟩
  | .ub => .ub
  | .fuel => .fuel

/-- A computation on byte arrays inside the link (Link.cpp:196-236). -/
def onBytes {α : Type} (m : M RawBytes.Mem α) : M Memory α := fun s =>
  match m s.mem with
  | .ok a b => .ok a ⟨s.heap, b⟩
  | .throw e b => .throw e ⟨s.heap, b⟩
  | .ub => .ub
  | .fuel => .fuel

/-- Reading the content of a RawBytes (`GetContent`, Message.cpp:46). A null content and indeterminate bytes are
undefined to read. -/
def content (o : RawBytes.Obj) : M RawBytes.Mem (List UInt8) :=
  match o.content with
  | none => M.ub
  | some p => do
    let b ← RawBytes.read p 0 o.size
    if b.all Option.isSome then pure (b.filterMap id) else M.ub

/-- `ReceiveMessage` (Link.cpp:190-242) on a socket (`open'`: not null) with the given waiting parts: the returned flag,
the reference parameter afterwards, and what is still waiting. The message is stored by the implicit copy assignment of
`Message`, which assigns the datagram (Datagram.h:82-87). -/
def receiveMessage (c : Codec) (open' : Bool) (waiting : List Part) (r : Msg) : M Memory (Bool × Msg × List Part) :=
  if open' then do
    let (o, rest) ← onBytes (gather waiting false ⟨none, 0⟩)
    if o.size > 0 then do
      let b ← onBytes (content o)
      match c.dec b with
      | none => M.ub
      | some f => do
        let t ← onHeap (Msg.deserialize f)
        onHeap (Datagram.assign r.dg t.dg)
        onBytes (RawBytes.dtor o)
        pure (true, ⟨t.sender, t.topic, r.dg⟩, rest)
    else do
      onBytes (RawBytes.dtor o)
      pure (false, r, rest)
  else pure (false, r, waiting)

/-- One half of an iteration of `Run` (Link.cpp:160-172 and 174-184): receive, prepend the own identifier, and publish a
copy (the parameter of `Bus::Publish`, Bus.cpp:99-105). -/
def poll (c : Codec) (l : St) (open' : Bool) (waiting : List Part) (r : Msg) : M Memory (List Msg × Msg × List Part) :=
  if l.context then do
    let (ok, r1, rest) ← receiveMessage c open' waiting r
    if ok then do
      let r2 := r1.prependSender l.ident
      let p ← onHeap r2.copy
      pure ([p], r2, rest)
    else pure ([], r1, rest)
  else pure ([], r, waiting)

/-- One iteration of `Run` (Link.cpp:138-187): the messages published and the parts still waiting on both subscribing
sockets. -/
def iteration (c : Codec) (l : St) (server client : List Part) : M Memory (List Msg × List Part × List Part) := do
  let d ← onHeap (Heap.alloc Node.empty)
  let (p1, r1, s1) ← poll c l l.serverSub server ⟨[], [], d⟩
  let (p2, _, c1) ← poll c l l.clientSub client r1
  pure (p1 ++ p2, s1, c1)

/-- `n` iterations of `Run` (Link.cpp:136-188) during which nothing new arrives: everything published, in order. -/
def iterations (c : Codec) (l : St) : Nat → List Part → List Part → M Memory (List Msg × List Part × List Part)
  | 0, s, k => pure ([], s, k)
  | n + 1, s, k => do
    let (p, s1, k1) ← iteration c l s k
    let (q, s2, k2) ← iterations c l n s1 k1
    pure (p ++ q, s2, k2)

/-- The part of `Deinitialize` that closes sockets (Link.cpp:289-322). -/
def shutDown (l : St) : St × List Zmq :=
  if l.context then
    (create l.ident,
      (if l.serverPub then [.close .server true] else []) ++ (if l.serverSub then [.close .server false] else []) ++
      (if l.clientPub then [.close .client true] else []) ++ (if l.clientSub then [.close .client false] else []) ++
      [.shutdown, .term])
  else (l, [])

/-- The same callback for a message on the bus, whose datagram is given by the tree it denotes (Link.cpp:72-97): the roles
on whose publishing socket it is sent. -/
def sends (l : St) (sender : Str) : List Role :=
  if sender.take (l.ident.length + 1) == l.ident ++ bs "/" then []
  else (if l.serverPub then [.server] else []) ++ (if l.clientPub then [.client] else [])

end LP.Link
