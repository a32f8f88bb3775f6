import Verif.Model.RawBytes
/-!
# Specification of RawBytes: each object is a byte string
-/
namespace LP
namespace RawBytes

/-- What a history makes of each name: absent, null, or a byte string. -/
abbrev Shadow := Nat → Option (Option (List UInt8))

/-- Set one name. -/
def Shadow.set (s : Shadow) (x : Nat) (v : Option (Option (List UInt8))) : Shadow := fun y => if y = x then v else s y

/-- The meaning of one statement on byte strings. -/
def Shadow.step (s : Shadow) : Op → Shadow
  | .make x => if s x = none then s.set x (some none) else s
  | .makeNull _ _ => s
  | .makeExt x b => if s x = none then s.set x (some (some b)) else s
  | .makeFrom x y => match s x, s y with
    | none, some (some b) => s.set x (some (some b))
    | _, _ => s
  | .appendExt x b => match s x with
    | some o => s.set x (some (some (o.getD [] ++ b)))
    | none => s
  | .appendFrom x y off len => match s x, s y with
    | some o, some (some b) => s.set x (some (some (o.getD [] ++ (b.drop off).take len)))
    | _, _ => s
  | .copy _ _ => s
  | .destroy x => s.set x none

/-- The statement copies no object by value and points only inside existing contents. -/
def Shadow.Allowed (s : Shadow) : Op → Prop
  | .copy _ _ => False
  | .appendFrom x y off len => s x ≠ none → s y ≠ none → ∃ b, s y = some (some b) ∧ off + len ≤ b.length
  | _ => True

/-- Every statement of the history is allowed when its turn comes. -/
def Shadow.AllAllowed : Shadow → List Op → Prop
  | _, [] => True
  | s, c :: cs => s.Allowed c ∧ AllAllowed (s.step c) cs

/-- Nothing exists. -/
def Shadow.init : Shadow := fun _ => none

end RawBytes
end LP
