import Verif.Model.Bus
import Verif.Model.Message
import Verif.Spec.Wire
/-!
# Nodes joined by link plugins
-/
namespace LP.Net
open LP.Bus

/-- One direction of a connection between two link plugins (Link.cpp:41-46, 63-68): the publishing socket of the link named
`out` on node `src` feeds the subscribing socket of the link named `inn` on node `dst`. -/
structure Hop where
  src : Nat
  out : Str
  dst : Nat
  inn : Str
  deriving DecidableEq

/-- A network in operation. `injected`: what was published on a node's bus by anything but a link; `published`: everything
published on any node's bus, in order; `pending`: messages a link's wildcard subscriber has yet to be called with, one entry
per socket pair they might take; `transit`: messages sent and not yet received. Simplification: ZMQ neither loses nor
duplicates messages, and neither the buses nor ZMQ keep any order here (every order they allow is among the executions)
(Bus.h:44, Link.cpp:72-97, 136-188). -/
structure St where
  injected : List (Nat × BMsg)
  published : List (Nat × BMsg)
  pending : List (Hop × BMsg)
  transit : List (Hop × BMsg)

/-- Before anything is published (no code: before any of Link.cpp:72-188). -/
def St.quiet : St := ⟨[], [], [], []⟩

/-- What can happen: something other than a link publishes on a node; a link's subscriber is called; a link receives
(Bus.cpp:99-105, Link.cpp:72-97, 136-188). -/
inductive Act where
  | publish (v : Nat) (m : BMsg)
  | deliver (i : Nat)
  | receive (i : Nat)

/-- The connections out of a node (the sockets of Link.cpp:27-69). -/
def leaving (net : List Hop) (v : Nat) : List Hop := net.filter (fun h => h.src = v)

/-- A message appears on a node's bus: every link of the node will be called with it once (Link.cpp:71, the subscription to
every topic; `C54_everything_else_sent_once`). -/
def announce (net : List Hop) (v : Nat) (m : BMsg) (σ : St) : St :=
  { σ with published := σ.published ++ [(v, m)], pending := σ.pending ++ (leaving net v).map (fun h => (h, m)) }

/-- The test `WasSentBySender` (Message.cpp:72-75) in the callback (Link.cpp:75). -/
def echo (n : Str) (m : BMsg) : Bool := Msg.wasSentBySender n ⟨m.sender, m.topic, 0⟩

/-- What the receiving link publishes (Link.cpp:169-170, 181-182, `PrependSender` Message.cpp:59-62); the document has been
through serialisation and deserialisation (`C55_round_trip`). -/
def arrive (h : Hop) (m : BMsg) : BMsg := ⟨h.inn ++ bs "/" ++ m.sender, m.topic, m.dg.wire⟩

/-- One step: a publication; the callback (Link.cpp:73-97), which drops or sends; one reception (Link.cpp:160-184). -/
def step (net : List Hop) (σ : St) : Act → Option St
  | .publish v m => some { announce net v m σ with injected := σ.injected ++ [(v, m)] }
  | .deliver i =>
    match σ.pending[i]? with
    | none => none
    | some (h, m) =>
      let τ := { σ with pending := σ.pending.eraseIdx i }
      some (if echo h.out m then τ else { τ with transit := τ.transit ++ [(h, m)] })
  | .receive i =>
    match σ.transit[i]? with
    | none => none
    | some (h, m) => some (announce net h.dst (arrive h m) { σ with transit := σ.transit.eraseIdx i })

/-- Many steps (no code of its own: an interleaving of Link.cpp:72-188). -/
def exec (net : List Hop) (σ : St) : List Act → Option St
  | [] => some σ
  | a :: as => (step net σ a).bind (fun τ => exec net τ as)

end LP.Net
