import Verif.Model.Net
import Verif.Spec.Link
/-!
# Specification of networks of links
-/
namespace LP.Net
open LP.Bus

/-- The same connection in the other direction. -/
def Hop.back (h : Hop) : Hop := ⟨h.dst, h.inn, h.src, h.out⟩

/-- Where a journey from `o` ends; journeys list their latest hop first. -/
def stop (o : Nat) : List Hop → Nat
  | [] => o
  | h :: _ => h.dst

/-- A journey that never leaves a node through the link it came in by. -/
def Route (net : List Hop) (o : Nat) : List Hop → Prop
  | [] => True
  | h :: r => h ∈ net ∧ h.src = stop o r ∧ (∀ g ∈ r.head?, h.out ≠ g.inn) ∧ Route net o r

/-- What a message has become after a journey: the receiving links' names in front of the sender, the document as
serialisation leaves it. -/
def after (m : BMsg) : List Hop → BMsg
  | [] => m
  | h :: r => ⟨h.inn ++ [slash] ++ (after m r).sender, m.topic, m.dg.wire⟩

/-- Point-to-point connections, one link instance per connection: each works in both directions between two different
links, each link belongs to one connection, and link names contain no slash. -/
structure Wired (nodes : List Nat) (net : List Hop) : Prop where
  distinct : nodes.Nodup
  once : net.Nodup
  inside : ∀ h ∈ net, h.src ∈ nodes
  back : ∀ h ∈ net, h.back ∈ net
  other : ∀ h ∈ net, h.back ≠ h
  one : ∀ h ∈ net, ∀ g ∈ net, h.src = g.src → h.out = g.out → h = g
  names : ∀ h ∈ net, slash ∉ h.out

/-- Some sequence of connections leads from one node to another. -/
inductive Linked (net : List Hop) : Nat → Nat → Prop where
  | here (v : Nat) : Linked net v v
  | hop {u : Nat} {h : Hop} : Linked net u h.src → h ∈ net → Linked net u h.dst

/-- All nodes are linked. -/
def Connected (nodes : List Nat) (net : List Hop) : Prop := ∀ u ∈ nodes, ∀ v ∈ nodes, Linked net u v

/-- There is no way round: whoever never turns back never returns. -/
def Acyclic (net : List Hop) : Prop := ∀ o r, Route net o r → stop o r = o → r = []

/-- No message is on its way. -/
def Quiescent (σ : St) : Prop := σ.pending = [] ∧ σ.transit = []

/-- Messages that did not come in through a link do not look as if they had. -/
def Proper (net : List Hop) (σ : St) : Prop := ∀ x ∈ σ.injected, ∀ h ∈ net, h.src = x.1 → ¬ Link.FromLink h.out x.2.sender

/-- The steps taken by links. -/
def work : List Act → Nat
  | [] => 0
  | .publish _ _ :: as => work as
  | _ :: as => work as + 1

/-- All links of a node are one and the same. -/
def Hub (net : List Hop) (s : Nat) (l : Str) : Prop := ∀ h ∈ net, (h.src = s → h.out = l) ∧ (h.dst = s → h.inn = l)

end LP.Net
