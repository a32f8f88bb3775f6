import Verif.Spec.Bus
/-!
# Which callback is running

An observer who sees each callback being invoked and returning.
-/
namespace LP.Bus

/-- A callback of subscriber `s` has been invoked and has not returned: the bus thread is inside a callback, and the last one
that was invoked is one of `s`. -/
def InCallback (σ : St) (s : Nat) : Prop :=
  (∃ m st batch, σ.phase = .visit m st true batch) ∧ (σ.log.getLast?).map Delivery.sub = some s

end LP.Bus
