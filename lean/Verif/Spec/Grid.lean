import Verif.Model.Grid
import Verif.Spec.Bus
import Verif.Spec.Net
/-!
# What the properties of networks of hosts talk about
-/
namespace LP.Grid
open LP.Bus (BMsg)
open LP.Net (Hop)

/-- Hosts on which anything may have been set up, but nothing has been published. -/
structure Silent (σ : St) : Prop where
  reach : ∀ v, Bus.Reachable (σ.host v)
  published : ∀ v, (σ.host v).published = []
  inflight : ∀ v, (σ.host v).inflight = []
  way : σ.way = []
  calls : ∀ v, σ.calls v = []
  lost : σ.lost = []
  injected : σ.injected = []

/-- Every state passed through satisfies `P`. -/
def Throughout (net : List Hop) (e : Ends) (P : St → Prop) : St → List Act → Prop
  | σ, [] => P σ
  | σ, a :: as => P σ ∧ ∀ σ', step net e σ a = some σ' → Throughout net e P σ' as

/-- All links are in operation: their subscribers to every topic are registered and served, and their buses attached. -/
def Up (net : List Hop) (e : Ends) (σ : St) : Prop := ∀ h ∈ net,
  e.sub h < (σ.host h.src).w.ns ∧ Bus.Live (σ.host h.src).w (e.sub h) ∧ ((σ.host h.src).w.sub (e.sub h)).topic = bs "/**/*" ∧
  ((σ.host h.dst).w.bus (e.bus h)).attached = true

/-- Nothing is left to do on the given hosts: everything published has been distributed and everything sent has been
received. -/
def Settled (ns : List Nat) (σ : St) : Prop := (∀ v ∈ ns, Bus.Idle (σ.host v) ∧ (σ.host v).inflight = []) ∧ σ.way = []

/-- Messages that did not come in through a link do not look as if they had. -/
def Proper (net : List Hop) (σ : St) : Prop := ∀ x ∈ σ.injected, ∀ h ∈ net, h.src = x.1 → ¬ Link.FromLink h.out x.2.sender

/-- The messages subscriber `s` of node `v` has been called with, in order. -/
def heard (σ : St) (v s : Nat) : List BMsg := ((σ.host v).log.filter (fun d => d.sub = s)).map Bus.Delivery.msg

/-- What the message injected as `x` is on node `v`: itself where it was injected, elsewhere a copy with the same topic and the
document as serialisation leaves it, the sender extended in front by something depending only on the two nodes. -/
def copyOn (pre : Nat → Nat → Str) (v : Nat) (x : Nat × BMsg) : BMsg :=
  if x.1 = v then x.2 else ⟨pre x.1 v ++ x.2.sender, x.2.topic, x.2.dg.wire⟩

/-- The hosts are working: their root buses run, and the links' buses exist. -/
def Working (ns : List Nat) (net : List Hop) (e : Ends) (σ : St) : Prop :=
  (∀ v ∈ ns, ((σ.host v).w.bus 0).running = true ∧ (σ.host v).phase ≠ .off) ∧ ∀ h ∈ net, e.bus h < (σ.host h.dst).w.nb

/-- No client is inside `Publish`. -/
def NoClient (σ : St) : Prop := ∀ v, none ∉ σ.calls v

/-- What goes on without the clients: the bus threads take steps, links receive and publish. -/
def Unaided : Act → Prop
  | .act _ (.run .go) => True
  | .act _ (.push _) => True
  | .receive _ => True
  | _ => False

end LP.Grid
