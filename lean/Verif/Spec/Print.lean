import Verif.Spec.Read
/-!
# Documents whose printed form is unambiguous
-/
namespace LP.Tree

mutual
/-- Only integers, strings without quotation marks, and keys that contain no colon and do not begin with a closing
brace. -/
def Plain : Tree → Prop
  | .empty => True
  | .value (.int _) => True
  | .value (.str s) => 34 ∉ s
  | .value _ => False
  | .list ts => PlainL ts
  | .dict ds => PlainD ds
/-- All elements. -/
def PlainL : List Tree → Prop
  | [] => True
  | t :: ts => Plain t ∧ PlainL ts
/-- All keys and entries. -/
def PlainD : List (Str × Tree) → Prop
  | [] => True
  | (k, t) :: ds => 58 ∉ k ∧ k.head? ≠ some 125 ∧ Plain t ∧ PlainD ds
end

/-- The number a text of decimal digits, possibly after a minus sign, stands for. -/
def readInt : Str → Int
  | [] => 0
  | c :: s => if c = 45 then - digits 0 s else digits 0 (c :: s)
where
  digits : Int → Str → Int
    | a, [] => a
    | a, c :: s => digits (10 * a + (c.toNat - 48)) s

end LP.Tree
