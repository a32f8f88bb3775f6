import Verif.Model.Heap
/-!
# Specification: the graph of RawDatagrams seen through the active representation
-/
namespace LP

/-- The children of an object in its active representation. -/
def Node.kids (n : Node Ptr) : List Ptr :=
  match n.ty with
  | .dict => n.dict.map Prod.snd
  | .list => n.list
  | _ => []

/-- `b` is reached from `a` by following children of active representations, in zero or more steps. -/
inductive Descends (h : Heap) (a : Addr) : Addr → Prop where
  | refl : Descends h a a
  | step {b c : Addr} : Descends h a b → some c ∈ (h.node b).kids → Descends h a c

/-- `a` leads to a cycle: some object below it is its own proper descendant. -/
def LeadsToCycle (h : Heap) (a : Addr) : Prop :=
  ∃ b c, Descends h a b ∧ some c ∈ (h.node b).kids ∧ Descends h c b

/-- Nothing below `a` is a null child or a null value. -/
def NoNulls (h : Heap) (a : Addr) : Prop :=
  ∀ b, Descends h a b → none ∉ (h.node b).kids ∧ ((h.node b).ty = .value → (h.node b).value ≠ none)

/-- All pointers lead to objects. -/
def Closed (h : Heap) : Prop := ∀ a, a < h.next → ∀ b, some b ∈ (h.node a).kids → b < h.next

end LP
