import Verif.Model.Locks
/-!
# What the blocking properties talk about
-/
namespace LP.Locks

/-- Bus `c` lies strictly below bus `b`. -/
inductive Below (σ : St) (b : Nat) : Nat → Prop
  | child {c : Nat} : c ∈ σ.children b → Below σ b c
  | deeper {c d : Nat} : Below σ b c → d ∈ σ.children c → Below σ b d

/-- What a callback of a subscriber on bus `b` must not call: anything that manages subscribers (or providers and
consumers, which bring a subscriber with them) of `b` itself, anything that manages child buses of a bus above `b`,
and `Start` of the root. -/
def Forbidden (σ : St) (b : Nat) : Op → Prop
  | .createSub c => c = b
  | .deleteSub c => c = b
  | .containsSub c => c = b
  | .createProvider c => c = b
  | .createConsumer c => c = b
  | .createChild c => Below σ c b
  | .getChild c => Below σ c b
  | .detach c => Below σ c b
  | .start => True
  | _ => False

/-- The event, if it is the invocation of a callback, invokes one that calls nothing forbidden. -/
def Polite (σ : St) : Act → Prop
  | .step t (.callback ops) =>
    ∀ b k, σ.threads[t]? = some (.subLoop b :: k) → ∀ op ∈ ops, ¬ Forbidden σ b op
  | _ => True

/-- States reachable by any events whatsoever. -/
inductive Reach : St → Prop
  | start : Reach start
  | step {σ σ' : St} {a : Act} : Reach σ → step σ a = some σ' → Reach σ'

/-- States reachable when callbacks call nothing forbidden. -/
inductive PoliteReach : St → Prop
  | start : PoliteReach start
  | step {σ σ' : St} {a : Act} : PoliteReach σ → Polite σ a → step σ a = some σ' → PoliteReach σ'

/-- Thread `t` can take a step. -/
def CanStep (σ : St) (t : Nat) : Prop := ∃ c, (step σ (.step t c)).isSome = true

/-- Thread `t` has something left to do. -/
def Unfinished (σ : St) (t : Nat) : Prop := ∃ i k, σ.threads[t]? = some (i :: k)

/-- Thread `t` cannot go on because it wants mutex `m`, which thread `t'` owns. -/
def Waits (σ : St) (t : Nat) (m : Mtx) (t' : Nat) : Prop :=
  (∃ k, σ.threads[t]? = some (.lock m :: k)) ∧ σ.owner m = some t'

/-- Any number of further events. -/
inductive Later : St → St → Prop
  | refl (σ : St) : Later σ σ
  | step {σ σ' σ'' : St} {a : Act} : Later σ σ' → step σ' a = some σ'' → Later σ σ''

end LP.Locks
