import Verif.Spec.Bus
/-!
# Executions without end
-/
namespace LP.Bus

/-- An execution that goes on for ever: what happens at each moment and the state before it. -/
structure Endless where
  st : Nat → St
  act : Nat → Act
  ok : ∀ n, step (st n) (act n) = some (st (n + 1))

/-- The operating system never stops scheduling the bus thread. Nothing is assumed about when, or about any other thread. -/
def Endless.Fair (ρ : Endless) : Prop := ∀ n, ∃ m, n ≤ m ∧ ∃ c, ρ.act m = .run c

/-- From moment `T` on nobody creates child buses. -/
def Endless.NoNewBuses (ρ : Endless) (T : Nat) : Prop := ∀ n, T ≤ n → ∀ b name, ρ.act n ≠ .createChild b name

/-- No callback throws. -/
def Endless.NoThrow (ρ : Endless) : Prop := ∀ n, ρ.act n ≠ .run .throwing

/-- Message number `i` is dealt with: it was taken from the queue, and the bus thread is not distributing anything. -/
def DealtWith (i : Nat) (σ : St) : Prop := i < σ.fates.length ∧ ∀ m st cb b, σ.phase ≠ .visit m st cb b

/-- Every event is one of the bus thread itself: a step of the bus, or something a callback does. -/
def Endless.Alone (ρ : Endless) : Prop :=
  ∀ n, (∃ c, ρ.act n = .run c) ∨ ∃ m st b, (ρ.st n).phase = .visit m st true b

end LP.Bus
