import Verif.Model.Action
import Verif.Model.Net
/-!
# Two hosts with actions, joined by a pair of link plugins
-/
namespace LP.Remote
open LP.Action (Next)
open LP.Bus (BMsg Delivery)

/-- What a link plugin uses on its host (Link.cpp:71-72, 169-170, 181-182): its identifier, its wildcard subscriber, and the
bus it publishes on. -/
structure End where
  name : Str
  sub : Nat
  bus : Nat

/-- Two hosts, each with its bus thread, consumers and providers (`Verif.Model.Action`), and the messages on their way to
each of them. Simplification as in `Verif.Model.Net`: ZMQ neither loses nor duplicates messages, any order is allowed, and
each link has one publishing socket, connected to the other link (Bus.h:36-60, Link.h:19-33). -/
structure St where
  host : Bool → Action.St
  way : Bool → List BMsg

/-- What can happen: an event on one host; a link receives the `i`-th message on its way to the host (Bus.h:92-186,
Link.cpp:72-97, 136-188). -/
inductive Act where
  | act (s : Bool) (a : Action.Act)
  | receive (s : Bool) (i : Nat)

/-- Replace one of two (no code). -/
def put {α : Type} (f : Bool → α) (s : Bool) (x : α) : Bool → α := fun r => if r = s then x else f r

/-- The connection that ends at host `s` (Link.cpp:41-46, 63-68). -/
def hop (ends : Bool → End) (s : Bool) : Net.Hop := ⟨(!s).toNat, (ends (!s)).name, s.toNat, (ends s).name⟩

/-- What the link's callback (Link.cpp:73-97) sends for the callbacks the bus invoked between two states. Simplification: it
sends when it begins. -/
def sends (e : End) (σ σ' : Action.St) : List BMsg :=
  ((σ'.bus.log.drop σ.bus.log.length).filter (fun d => d.sub == e.sub && !Net.echo e.name d.msg)).map (fun d => d.msg)

/-- One event. A received message is published (Link.cpp:160-184) by the thread of the link. -/
def step (ends : Bool → End) (σ : St) : Act → Next St
  | .act s a => match Action.step (σ.host s) a with
    | .cannot => .cannot
    | .undefined => .undefined
    | .to τ => .to ⟨put σ.host s τ, put σ.way (!s) (σ.way (!s) ++ sends (ends s) (σ.host s) τ)⟩
  | .receive s i => match (σ.way s)[i]? with
    | none => .cannot
    | some m => match Action.step (σ.host s) (.bus (.publish (ends s).bus (Net.arrive (hop ends s) m))) with
      | .cannot => .cannot
      | .undefined => .undefined
      | .to τ => .to ⟨put σ.host s τ, put σ.way s ((σ.way s).eraseIdx i)⟩

/-- Many events (no code of its own: an interleaving of the events of `Act`, Link.cpp:72-188). -/
def exec (ends : Bool → End) (σ : St) : List Act → Next St
  | [] => .to σ
  | a :: as => match step ends σ a with
    | .cannot => .cannot
    | .undefined => .undefined
    | .to σ' => exec ends σ' as

end LP.Remote
