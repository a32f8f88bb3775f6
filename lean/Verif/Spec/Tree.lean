import Verif.Model.Heap
/-!
# The tree a datagram denotes

A specification-level view: plain finite trees, and `Rep h S a t`: the object at address `a` denotes `t`, all objects
involved lie in the set `S`.
-/
namespace LP

/-- A datagram as a mathematical object. -/
inductive Tree where
  | empty
  | value (v : Val)
  | list (ts : List Tree)
  | dict (ds : List (Str × Tree))

namespace Tree

/-- Nesting depth; a recursion bound of `depth t` is enough for every recursive member function. -/
def depth : Tree → Nat
  | empty => 1
  | value _ => 1
  | list ts => 1 + depthL ts
  | dict ds => 1 + depthD ds
where
  depthL : List Tree → Nat
    | [] => 0
    | t :: ts => max (depth t) (depthL ts)
  depthD : List (Str × Tree) → Nat
    | [] => 0
    | (_, t) :: ds => max (depth t) (depthD ds)

end Tree

mutual
/-- Address `a` denotes the tree, through objects in `S` only; every object holds content in its active
representation only, children are non-null, map keys are strictly sorted. -/
def Rep (h : Heap) (S : Addr → Prop) : Tree → Addr → Prop
  | .empty, a => S a ∧ h.node a = ⟨.empty, [], [], none⟩
  | .value v, a => S a ∧ h.node a = ⟨.value, [], [], some v⟩
  | .list ts, a => S a ∧ ∃ ps, h.node a = ⟨.list, [], ps, none⟩ ∧ RepL h S ts ps
  | .dict ds, a => S a ∧ ∃ d, h.node a = ⟨.dict, d, [], none⟩ ∧ d.Sorted ∧ RepD h S ds d
/-- Pointwise version for list children. -/
def RepL (h : Heap) (S : Addr → Prop) : List Tree → List Ptr → Prop
  | [], ps => ps = []
  | t :: ts, ps => ∃ b qs, ps = some b :: qs ∧ Rep h S t b ∧ RepL h S ts qs
/-- Pointwise version for dictionary children (same keys, same order). -/
def RepD (h : Heap) (S : Addr → Prop) : List (Str × Tree) → Dict Ptr → Prop
  | [], d => d = []
  | (k, t) :: ts, d => ∃ b e, d = (k, some b) :: e ∧ Rep h S t b ∧ RepD h S ts e
end

end LP
