import Verif.Model.BusConc
import Verif.Model.Net
/-!
# Any number of hosts, each with its bus thread, joined by link plugins
-/
namespace LP.Grid
open LP.Bus (BMsg Delivery)
open LP.Net (Hop)

/-- What the links of a network use on their hosts (Link.cpp:71-72, 170, 182): for each connection the subscriber of the
sending link on `h.src` and the bus on `h.dst` the receiving link publishes on. -/
structure Ends where
  sub : Hop → Nat
  bus : Hop → Nat

/-- Hosts with the messages sent and not yet received (`way`). The other fields are observations (ghost state): for each
running `Publish` call of a host, in the order of `inflight`, what a link has received if it is a link's call (`calls`);
what a link received while its bus was detached, and therefore lost (`lost`); what was published by anything but a link, in
the order it was appended to the queues (`injected`). Simplification as in `Verif.Model.Net`: ZMQ neither loses nor
duplicates messages, any order is allowed (Bus.h:36-60, Link.h:19-33; several processes of main.cpp:21-52). -/
structure St where
  host : Nat → Bus.St
  way : List (Hop × BMsg)
  calls : Nat → List (Option (Hop × BMsg))
  lost : List (Hop × BMsg)
  injected : List (Nat × BMsg)

/-- What can happen: an event on a host; a link receives the `k`-th of the messages on their way (Bus.h:92-186,
Link.cpp:72-97, 136-188). -/
inductive Act where
  | act (v : Nat) (a : Bus.Act)
  | receive (k : Nat)

/-- Replace the value at one place (no code). -/
def put {α : Type} (f : Nat → α) (v : Nat) (x : α) : Nat → α := fun u => if u = v then x else f u

/-- What the callbacks of the links of node `v` (Link.cpp:73-97) send for the callbacks invoked between two states of its
bus. Simplifications: they send when they begin; whatever callback the subscriber of a link has is the link's. -/
def sends (net : List Hop) (e : Ends) (v : Nat) (b b' : Bus.St) : List (Hop × BMsg) :=
  (b'.log.drop b.log.length).flatMap (fun d =>
    ((Net.leaving net v).filter (fun h => e.sub h == d.sub && !Net.echo h.out d.msg)).map (fun h => (h, d.msg)))

/-- Whose calls of `Publish` are running after an event on a host (Bus.cpp:18-26, 99-105): those begun by it are not a
link's. -/
def callsAfter (b b' : Bus.St) (l : List (Option (Hop × BMsg))) : Bus.Act → List (Option (Hop × BMsg))
  | .push i => l.eraseIdx i
  | _ => l ++ List.replicate (b'.inflight.length - b.inflight.length) none

/-- What an event on a host adds to the messages published by anything but a link (Bus.cpp:18-26). -/
def injects (v : Nat) (b : Bus.St) (l : List (Option (Hop × BMsg))) : Bus.Act → List (Nat × BMsg)
  | .push i => match b.inflight[i]?, l[i]? with
    | some m, some none => [(v, m)]
    | _, _ => []
  | _ => []

/-- One event. A link that receives (Link.cpp:160-184) publishes on its bus what it received, with its identifier in front
of the sender. -/
def step (net : List Hop) (e : Ends) (σ : St) : Act → Option St
  | .act v a => match Bus.step (σ.host v) a with
    | none => none
    | some b => some { host := put σ.host v b
                       way := σ.way ++ sends net e v (σ.host v) b
                       calls := put σ.calls v (callsAfter (σ.host v) b (σ.calls v) a)
                       lost := σ.lost
                       injected := σ.injected ++ injects v (σ.host v) (σ.calls v) a }
  | .receive k => match σ.way[k]? with
    | none => none
    | some (h, m) => match Bus.step (σ.host h.dst) (.publish (e.bus h) (Net.arrive h m)) with
      | none => none
      | some b =>
        let began := (σ.host h.dst).inflight.length < b.inflight.length
        some { host := put σ.host h.dst b
               way := σ.way.eraseIdx k
               calls := put σ.calls h.dst (σ.calls h.dst ++ (if began then [some (h, m)] else []))
               lost := σ.lost ++ (if began then [] else [(h, m)])
               injected := σ.injected }

/-- Many events (no code of its own: an interleaving of the events of `Act`, Link.cpp:72-188). -/
def exec (net : List Hop) (e : Ends) (σ : St) : List Act → Option St
  | [] => some σ
  | a :: as => match step net e σ a with
    | none => none
    | some τ => exec net e τ as

end LP.Grid
