import Verif.Spec.Wire
/-! # Specification: documents of a given number of values -/
namespace LP.Tree

/-- The list of two copies of the list of two copies of ..., `k` levels deep, with values at the bottom. -/
def full : Nat → Tree
  | 0 => .value (.bool true)
  | k + 1 => .list [full k, full k]

mutual
/-- The number of values in a document. -/
def values : Tree → Nat
  | .empty => 0
  | .value _ => 1
  | .list ts => valuesL ts
  | .dict ds => valuesD ds
/-- In all elements. -/
def valuesL : List Tree → Nat
  | [] => 0
  | t :: ts => values t + valuesL ts
/-- In all entries. -/
def valuesD : List (Str × Tree) → Nat
  | [] => 0
  | (_, t) :: ds => values t + valuesD ds
end

mutual
/-- The number of datagrams a document consists of: itself and all parts of it. -/
def parts : Tree → Nat
  | .empty => 1
  | .value _ => 1
  | .list ts => 1 + partsL ts
  | .dict ds => 1 + partsD ds
/-- In all elements. -/
def partsL : List Tree → Nat
  | [] => 0
  | t :: ts => parts t + partsL ts
/-- In all entries. -/
def partsD : List (Str × Tree) → Nat
  | [] => 0
  | (_, t) :: ds => parts t + partsD ds
end

mutual
/-- The bytes of text in a document: its strings and its keys. -/
def letters : Tree → Nat
  | .value (.str s) => s.length
  | .list ts => lettersL ts
  | .dict ds => lettersD ds
  | _ => 0
/-- In all elements. -/
def lettersL : List Tree → Nat
  | [] => 0
  | t :: ts => letters t + lettersL ts
/-- In all entries, with the keys. -/
def lettersD : List (Str × Tree) → Nat
  | [] => 0
  | (k, t) :: ds => k.length + letters t + lettersD ds
end

end LP.Tree
