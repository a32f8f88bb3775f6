import Verif.Model.Team
import Verif.Spec.Bus
/-!
# What is said about several threads in `Start`
-/
namespace LP.Team
open LP.Bus

/-- The states reached from a new hierarchy with any number of threads. -/
def Reachable (σ : St) : Prop := ∃ name n σ₀ es, initial name n = some σ₀ ∧ exec σ₀ es = .to σ

/-- The thread is in the loop over the messages it has taken out of the queue, or about to take them. -/
def Distributing : Pos → Prop
  | .run .drain => True
  | .run (.loop _) => True
  | .run (.visit _ _ _ _) => True
  | _ => False

/-- The messages thread `i` has taken out of the queue and not yet begun to distribute. -/
def batchOf : Pos → List BMsg
  | .run (.loop b) => b
  | .run (.visit _ _ _ b) => b
  | _ => []

/-- A callback is running in this thread. -/
def InCallback : Pos → Prop
  | .run (.visit _ _ true _) => True
  | _ => False

/-- The thread is in `Start`. -/
def Inside : Pos → Prop
  | .out => False
  | _ => True

/-- The state holds everywhere on the way. -/
def Throughout (P : St → Prop) : St → List Ev → Prop
  | σ, [] => P σ
  | σ, e :: es => P σ ∧ ∀ σ', step σ e = .to σ' → Throughout P σ' es

/-- Nothing is left to do: no thread is in the middle of a batch and nothing is queued. -/
def Idle (σ : St) : Prop := σ.base.w.queue = [] ∧ ∀ p ∈ σ.team, ¬ Distributing p

/-- Steps of the threads in `Start`. -/
def Ev.own : Ev → Bool
  | .lock _ => true
  | .go _ _ => true
  | .wake _ _ => true
  | _ => false

/-- Neither `Start` of the root nor the creation of a bus or subscriber. -/
def Ev.tame : Ev → Bool
  | .start _ => false
  | .api (.createChild _ _) => false
  | .api (.createSub _ _ _) => false
  | _ => true

/-- A message is queued. -/
def Ev.queues : Ev → Bool
  | .api (.push _) => true
  | _ => false

end LP.Team
