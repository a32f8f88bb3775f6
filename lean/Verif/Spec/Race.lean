import Verif.Model.Race
/-!
# What the data race properties talk about
-/
namespace LP.Race
open Instr

/-- The instruction accesses member `l` without synchronisation of its own; `w`: it writes. -/
def Accesses (l : Loc) (w : Bool) : Instr → Prop
  | .read l' => l' = l ∧ w = false
  | .write l' _ => l' = l ∧ w = true
  | _ => False

/-- Two threads are about to access `l`, one of them to write it: either may come first, or both at once. -/
def Race (σ : St) (l : Loc) : Prop :=
  ∃ (t t' : Nat) (i i' : Instr) (k k' : List Instr) (w w' : Bool), t ≠ t' ∧ σ.threads[t]? = some (i :: k) ∧ σ.threads[t']? = some (i' :: k') ∧
    Accesses l w i ∧ Accesses l w' i' ∧ (w = true ∨ w' = true)

/-- The containers of a bus. -/
def Container : Loc → Prop
  | .queue => True
  | .subs _ => True
  | .kids _ => True
  | .pubs _ => True
  | .provs _ => True
  | .cons _ => True
  | _ => False

/-- What clients of the bus do. Everything that is not mentioned is always allowed. -/
structure Policy where
  /-- give callbacks to existing subscribers: by `SetDatagramCallback` and `SetMessageCallback`, by
  `CreateActionProvider` and `CreateActionConsumer` (which do so), or take them away by `DeleteSubscriber` on another
  bus than the subscriber's own -/
  setters : Bool
  /-- call `DeletePublisher` -/
  deletes : Bool
  /-- call `Detach` -/
  detaches : Bool
  /-- call `Request` or `RequestAsync` outside callbacks -/
  outside : Bool
  /-- call `Reset` of a provider -/
  resets : Bool
  /-- a `Request` gives up waiting -/
  timeouts : Bool

/-- Anything. -/
def anything : Policy := ⟨true, true, true, true, true, true⟩
/-- Nothing of what is mentioned. -/
def careful : Policy := ⟨false, false, false, false, false, false⟩

/-- May this function be called? -/
def Policy.allows (P : Policy) (inCallback : Bool) : Op → Prop
  | .setCb _ _ => P.setters = true
  | .createProvider _ => P.setters = true
  | .createConsumer _ => P.setters = true
  | .deleteSub b h _ => b = h ∨ P.setters = true
  | .deletePub _ _ _ => P.deletes = true
  | .detach _ => P.detaches = true
  | .requestAsync _ => inCallback = true ∨ P.outside = true
  | .request _ => inCallback = true ∨ P.outside = true
  | .resetProvider _ => P.resets = true
  | _ => True

/-- The event keeps to the policy. -/
def Policy.permits (P : Policy) (σ : St) : Act → Prop
  | .spawn ops => ∀ op ∈ ops, P.allows false op
  | .step _ (.run ops) => ∀ op ∈ ops, P.allows true op
  | .step t .no => P.timeouts = true ∨ ∀ n k, σ.threads[t]? ≠ some (wait n :: k)
  | _ => True

/-- States reached from `σ₀` by clients that keep to the policy. -/
inductive Reach (P : Policy) (σ₀ : St) : St → Prop
  | refl : Reach P σ₀ σ₀
  | step {σ σ' : St} {a : Act} : Reach P σ₀ σ → P.permits σ a → step σ a = some σ' → Reach P σ₀ σ'

/-- A state between two phases: something has been set up by clients that did anything they liked, and no function is
being executed any more. What comes later is ordered after all that (for instance by creating the threads only now). -/
def Ready (σ : St) : Prop := Reach anything start σ ∧ ∀ k ∈ σ.threads, k = []

end LP.Race
