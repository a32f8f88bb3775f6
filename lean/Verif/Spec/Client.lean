import Verif.Spec.Wire
/-!
# Vocabulary for statements about client programs
-/
namespace LP
open Heap

/-- All child pointers of an object. -/
def Node.children {P : Type} (n : Node P) : List P := n.dict.map Prod.snd ++ n.list

/-- `Reach h a b`: object `b` is part of the datagram at `a`. -/
inductive Reach (h : Heap) (a : Nat) : Nat → Prop where
  | refl : Reach h a a
  | step {b c : Nat} : Reach h a b → some c ∈ (h.node b).children → Reach h a c

/-- The variable through whose datagram a command writes. -/
def Cmd.writes : Cmd → Option Nat
  | .assign x _ | .assignVal x _ | .addVal x _ | .addNew x _ | .removeKey x _ | .removeIdx x _ | .clear x => some x
  | .indexKey _ y _ | .indexIdx _ y _ => some y
  | .make .. | .makeVal .. | .copyCtor .. | .receive .. | .json .. | .drop _ => none

/-- The variable whose binding a command changes. -/
def Cmd.binds : Cmd → Option Nat
  | .make x _ | .makeVal x _ | .copyCtor x _ | .indexKey x _ _ | .indexIdx x _ _ | .receive x _ | .json x _ _ | .drop x => some x
  | _ => none

/-- The command is not a deserialisation of a table that lacks fields which reading it needs. -/
def Cmd.Sound : Cmd → Prop
  | .receive _ f => ¬ Broken f
  | _ => True

/-- No object is reachable both from a variable in `L` and from a variable outside `L`. -/
def Separated (L : Nat → Prop) (s : DState) : Prop :=
  ∀ x y a b z, L x → ¬ L y → s.env x = some a → s.env y = some b → Reach s.heap a z → ¬ Reach s.heap b z

/-- A command confined to the variables in `L`: it writes through and binds variables in `L` only (it may read others). -/
def Confined (L : Nat → Prop) (c : Cmd) : Prop :=
  (∀ y, c.writes = some y → L y) ∧ (∀ y, c.binds = some y → L y)

/-- The state is one that some program using only the Datagram API reaches. -/
def Reachable (s : DState) : Prop := ∃ prog, Cmd.runAll prog Cmd.init = some s

/-- Variable `x` is in scope and holds document `t`. -/
def Holds (s : DState) (x : Nat) (t : Tree) : Prop :=
  ∃ a, s.env x = some a ∧ Rep s.heap (fun z => z < s.heap.next) t a

/-- The edit a statement makes on the document of the variable it names; `none` for the other statements. -/
def Stmt.edit? : Stmt → Option (Nat × List Sel × Tree.Edit)
  | .touch x p => some (x, p, Tree.eTouch)
  | .setVal x p v => some (x, p, Tree.eSet (.value v))
  | .addVal x p v => some (x, p, Tree.eAdd (.value v))
  | .addNew x p ty => some (x, p, Tree.eAdd (Tree.ofType ty))
  | .removeKey x p k => some (x, p, Tree.eRemoveKey k)
  | .removeIdx x p i => some (x, p, Tree.eRemoveIdx i)
  | .clear x p => some (x, p, Tree.eClear)
  | _ => none

/-- How a statement ended. -/
def Ends (r : Res DState Unit) (e : Option Exn) (s' : DState) : Prop :=
  r = match e with | none => .ok () s' | some e => .throw e s'

end LP
