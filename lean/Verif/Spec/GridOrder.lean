import Verif.Spec.Grid
/-!
# The order of messages in networks of hosts
-/
namespace LP.Grid
open LP.Bus (BMsg)
open LP.Net (Hop)

/-- A link receives in order: what it receives over a connection is the oldest message on its way there (ZMQ keeps the order of
the messages of a connection), and it receives when it has completed its previous `Publish` (Link.cpp:160-185, one thread). -/
def Ordered (σ : St) : Act → Prop
  | .receive k => ∀ x, σ.way[k]? = some x → (∀ (j : Nat) (y : Hop × BMsg), j < k → σ.way[j]? = some y → y.1 ≠ x.1) ∧
      ∀ y, some y ∈ σ.calls x.1.dst → y.1.inn ≠ x.1.inn
  | .act _ _ => True

/-- All links receive in order. -/
def InOrder (net : List Hop) (e : Ends) : St → List Act → Prop
  | _, [] => True
  | σ, a :: as => Ordered σ a ∧ ∀ σ', step net e σ a = some σ' → InOrder net e σ' as

/-- The sender path begins with `p`. -/
def under (p : Str) (m : BMsg) : Bool := p.isPrefixOf m.sender

/-- The message came in through the link named `n`. -/
def through (n : Str) (m : BMsg) : Bool := under (n ++ [slash]) m

/-- What the links along a journey put in front of the sender; journeys list their latest hop first. -/
def trail : List Hop → Str
  | [] => []
  | h :: r => h.inn ++ [slash] ++ trail r

/-- This sender, on node `o`, is not one a link of `o` has put there. -/
def native (net : List Hop) (o : Nat) (s : Str) : Bool := net.all (fun h => decide (h.src ≠ o) || !(h.out ++ [slash]).isPrefixOf s)

/-- The message was published on node `o` by anything but a link, and has made the journey `r` since. -/
def madeJourney (net : List Hop) (o : Nat) (r : List Hop) (m : BMsg) : Bool :=
  under (trail r) m && native net o (m.sender.drop (trail r).length)

/-- What was published on node `o` by anything but a link, in order. -/
def own (σ : St) (o : Nat) : List BMsg := (σ.injected.filter (fun x => decide (x.1 = o))).map Prod.snd

/-- A journey continued over one more connection; going back by the link one came in by undoes the latest hop. -/
def onward (h : Hop) : List Hop → List Hop
  | [] => [h]
  | g :: q => if g.inn = h.out then q else h :: g :: q

/-- The journey `q` continued by the journey `r`. -/
def onwards : List Hop → List Hop → List Hop
  | [], q => q
  | h :: r, q => onward h (onwards r q)

end LP.Grid
