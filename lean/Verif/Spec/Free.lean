import Verif.Spec.Client
import Verif.Spec.Graph
/-!
# Specification: what `shared_ptr` destroys

Every reference to a RawDatagram is a `shared_ptr`: in a Datagram (Datagram.h:17), in `mDictionary` or in `mList`
(RawDatagram.h:40-41), whether or not that is the active representation.
-/
namespace LP

/-- Object `z` has been destroyed: no variable refers to it, and every object that referred to it is destroyed. The least
such set, since a use count only falls to zero by the other references being removed one by one. -/
inductive Gone (s : DState) : Nat → Prop where
  | mk {z : Nat} : (∀ x, s.env x ≠ some z) →
      (∀ p, p < s.heap.next → (∃ k, (k, some z) ∈ (s.heap.node p).dict) ∨ some z ∈ (s.heap.node p).list → Gone s p) → Gone s z

/-- Some variable holds a datagram of which `z` is a part. -/
def Held (s : DState) (z : Nat) : Prop := ∃ x a, s.env x = some a ∧ Descends s.heap a z

end LP
