import Verif.Spec.Bus
/-!
# What the property about exceptions out of callbacks talks about
-/
namespace LP.Bus

/-- The deliveries of message number `i`: who got it, in order. -/
def recipients (i : Nat) (log : List Delivery) : List Nat := (log.filter (fun d => d.idx = i)).map Delivery.sub

/-- The callback that is running, if any. The log ends with the delivery whose callback is running. -/
def runningCb (σ : St) : Option Nat :=
  match σ.phase with
  | .visit _ _ true _ => σ.log.getLast?.map Delivery.cb
  | _ => none

/-- The callbacks with a number in `N` always throw, as does the function that `Subscriber(topic, callback)` and
`SetDatagramCallback(callback)` make of a null `callback` (Subscriber.cpp:14-24, 39-48): it tests nothing and calls a
`std::function` without target, which throws `std::bad_function_call`. -/
def Doomed (N : List Nat) : St → List Act → Prop
  | _, [] => True
  | σ, a :: as => (∀ f ∈ N, runningCb σ = some f → ∀ c, a = .run c → c = .throwing) ∧
      ∀ σ', step σ a = some σ' → Doomed N σ' as

/-- How often callbacks from `N` were called. -/
def calls (N : List Nat) (log : List Delivery) : Nat := (log.filter (fun d => decide (d.cb ∈ N))).length

/-- How often `Start` of the root was called. -/
def starts (as : List Act) : Nat := (as.filter (fun a => match a with | .start => true | _ => false)).length

end LP.Bus
