import Verif.Model.Payload
import Verif.Spec.Client
/-!
# Specification: who owns which Datagram variable
-/
namespace LP

/-- The variables a command names. -/
def Cmd.vars : Cmd → List Nat
  | .make x _ | .makeVal x _ | .assignVal x _ | .addVal x _ | .addNew x _ | .removeKey x _ | .removeIdx x _ | .clear x
  | .receive x _ | .json x _ _ | .drop x => [x]
  | .copyCtor x y | .assign x y | .indexKey x y _ | .indexIdx x y _ => [x, y]

namespace Payload

/-- Every variable belongs to a thread (`some t`) or is an element of the queue (`none`), and client code uses the
variables of its own thread only: threads do not share Datagram handles. -/
def Act.Owned (own : Nat → Option Nat) (t : Nat) : Act → Prop
  | .lock | .unlock => True
  | .api c => ∀ v ∈ c.vars, own v = some t
  | .push q x => own q = none ∧ own x = some t
  | .take z q => own z = some t ∧ own q = none
  | .clear q => own q = none

/-- A state reached by some interleaving of threads that do not share handles. -/
def Reachable (own : Nat → Option Nat) (σ : St) : Prop :=
  ∃ as, (∀ p ∈ as, Act.Owned own p.1 p.2) ∧ exec as init = some σ

/-- Thread `t` can do `a` now. -/
def Enabled (own : Nat → Option Nat) (σ : St) (t : Nat) (a : Act) : Prop := Act.Owned own t a ∧ ∃ σ', step t a σ = some σ'

/-- The step may read or write the object `z`: it is a part of a Datagram in one of the variables it names. -/
def Touches (σ : St) (a : Act) (z : Nat) : Prop :=
  ∃ c v b, a.cmd = some c ∧ v ∈ c.vars ∧ σ.d.env v = some b ∧ Reach σ.d.heap b z

end Payload
end LP
