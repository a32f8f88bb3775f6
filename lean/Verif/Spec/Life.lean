import Verif.Model.Life
/-!
# Specification of lifetimes
-/
namespace LP.Life

/-- A state some program can bring about. -/
def Reachable (σ : St) : Prop := ∃ as, exec init as = .to σ

/-- The bus `a` is the bus `b` or was above it: `b` was created by `CreateChildBus` on it, or on a bus below it. -/
inductive Above (σ : St) (a : Nat) : Nat → Prop where
  | refl : Above σ a a
  | child {p c : Nat} : σ.parent c = some p → Above σ a p → Above σ a c

/-- The object is captured by a function object of a live object. -/
def Captured (σ : St) (a : Nat) : Prop := ∃ i o f, σ.obj i = some o ∧ f ∈ o.fns ∧ a ∈ f.owns

/-- Client code keeps the object: in a variable, or captured in a callback. -/
def Kept (σ : St) (a : Nat) : Prop := a ∈ σ.held ∨ Captured σ a

/-- The object `a` owns `x`, directly or through others. -/
inductive Owns (σ : St) (a : Nat) : Nat → Prop where
  | refl : Owns σ a a
  | more {j x : Nat} {o : Obj} : Owns σ a j → σ.obj j = some o → x ∈ o.owned → Owns σ a x

/-- The bus is alive. -/
def LiveBus (σ : St) (b : Nat) : Prop := ∃ o, σ.obj b = some (.bus o)

/-- Something that keeps the bus alive: client code keeps it or a bus above it. -/
def BusKept (σ : St) (b : Nat) : Prop := ∃ a, LiveBus σ a ∧ Kept σ a ∧ Above σ a b

/-- The object contains code of the library. -/
def HasCode (σ : St) (x l : Nat) : Prop := ∃ o, σ.obj x = some o ∧ l ∈ o.code

/-- The bus a publisher publishes to. -/
def BusOf (σ : St) (p b : Nat) : Prop := ∃ l, σ.obj p = some (.pub (some (b, l)))

/-- What a careful program does: it closes a library only when no object contains code of it, and it publishes through
publishers, requests and responds only while it holds the bus they were made on. -/
def Careful (σ : St) : Act → Prop
  | .close l => ∀ x, ¬ HasCode σ x l
  | .publish p => ∀ b, BusOf σ p b → b ∈ σ.held
  | .request a _ => ∀ k s p fs, σ.obj a = some (.act k s p fs) → ∀ b, BusOf σ p b → b ∈ σ.held
  | .respond a => ∀ k s p fs, σ.obj a = some (.act k s p fs) → ∀ b, BusOf σ p b → b ∈ σ.held
  | _ => True

/-- The program is careful all along. -/
def AllCareful : St → List Act → Prop
  | _, [] => True
  | σ, a :: as => Careful σ a ∧ ∀ σ', step σ a = .to σ' → AllCareful σ' as

end LP.Life
