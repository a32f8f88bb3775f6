import Verif.Spec.Wire
/-! # Specification: what of a document shows in the bytes of a message -/
namespace LP.Tree

mutual
/-- The document with -0.0 replaced by 0.0 and values of other types than string, int, double and bool by empty datagrams. -/
def sent : Tree → Tree
  | .empty => .empty
  | .value (.other _ _) => .empty
  | .value (.dbl d) => .value (.dbl (if Ieee.value d = some (.fin 0) then 0 else d))
  | .value v => .value v
  | .list ts => .list (sentL ts)
  | .dict ds => .dict (sentD ds)
/-- Element by element. -/
def sentL : List Tree → List Tree
  | [] => []
  | t :: ts => sent t :: sentL ts
/-- Entry by entry. -/
def sentD : List (Str × Tree) → List (Str × Tree)
  | [] => []
  | (k, t) :: ds => (k, sent t) :: sentD ds
end

end LP.Tree
