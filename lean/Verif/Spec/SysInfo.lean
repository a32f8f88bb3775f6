import Verif.Model.SysInfo
import Verif.Spec.Action
/-!
# What the properties of the SysInfo plugin talk about
-/
namespace LP.SysInfo
open LP.Action (Ev)

/-- The plugin was created in some reachable hierarchy and some sequence of events has happened since. -/
def Reachable (σ : St) : Prop := ∃ w bus send as, Action.Reachable w ∧ exec (create w bus send) as = .to σ

/-- The ids of the requests shown to provider `p`, in order. -/
def requested (p : Nat) (evs : List Ev) : List Str :=
  evs.filterMap (fun e => match e with
    | .requested p' _ id _ => if p' = p then some id else none
    | .answered .. => none)

/-- The calls of `Respond` on provider `p`, in order: id and response. -/
def responded (p : Nat) (replied : List (Nat × Str × Tree)) : List (Str × Tree) :=
  replied.filterMap (fun r => if r.1 = p then some r.2 else none)

/-- Every event of other code satisfies `P` in the state it happens in. -/
def Along (P : Action.St → Action.Act → Prop) : St → List Act → Prop
  | _, [] => True
  | σ, a :: as => (∀ x, a = .world x → P σ.world x) ∧ ∀ σ', step σ a = .to σ' → Along P σ' as

/-- Every state passed through satisfies `P`. -/
def Throughout (P : Action.St → Prop) : St → List Act → Prop
  | σ, [] => P σ.world
  | σ, a :: as => P σ.world ∧ ∀ σ', step σ a = .to σ' → Throughout P σ' as

end LP.SysInfo
