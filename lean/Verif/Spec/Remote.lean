import Verif.Model.Remote
import Verif.Spec.Action
/-!
# What the properties of actions across a link talk about
-/
namespace LP.Remote
open LP.Action (Next Bears requestTopic responseTopic idOf)
open LP.Bus (BMsg)

/-- Every event of the execution, together with the state it happens in, satisfies `P`. -/
def Along (ends : Bool → End) (P : St → Act → Prop) : St → List Act → Prop
  | _, [] => True
  | σ, a :: as => P σ a ∧ ∀ σ', step ends σ a = .to σ' → Along ends P σ' as

/-- Every state passed through satisfies `P`. -/
def Throughout (ends : Bool → End) (P : St → Prop) : St → List Act → Prop
  | σ, [] => P σ
  | σ, a :: as => P σ ∧ ∀ σ', step ends σ a = .to σ' → Throughout ends P σ' as

/-- The link is in operation: its subscriber to every topic is registered and served, its bus is attached. -/
def Up (e : End) (τ : Action.St) : Prop :=
  Bus.Live τ.bus.w e.sub ∧ (τ.bus.w.sub e.sub).topic = bs "/**/*" ∧ (τ.bus.w.bus e.bus).attached = true

/-- The name has the form of a sender that came in through the link. -/
def Through (e : End) (name : Str) : Prop := ∃ rest, name = e.name ++ bs "/" ++ rest

/-- What publisher `q` publishes enters the queue, under a name that does not look like something received by the link. -/
def Heard (e : End) (q : Nat) (τ : Action.St) : Prop :=
  Action.Attached q τ.bus ∧ ¬ Through e (τ.bus.w.bus (τ.bus.w.pub q).bus).name

/-- Nobody on this host says anything about `id` on this topic (apart from the request already registered), and no callback
throws. -/
def Reserved (topic id : Str) (σ : Action.St) : Action.Act → Prop
  | .bus (.publish _ m) => ¬ Bears topic id m
  | .bus (.pubPublish q d) => ∀ sender, ¬ Bears topic id ⟨sender, (σ.bus.w.pub q).topic, d⟩
  | .request _ id' _ _ => id' ≠ id
  | .begin _ id' _ _ => id' ≠ id
  | .respond p' id' _ => id' = id → ¬ ∃ y, σ.provs[p']? = some y ∧ y.topic = topic
  | .run .throwing => False
  | _ => True

/-- Nobody interferes: on the consumer's host `s` nobody else uses the id; on the other host only provider `p` answers it,
with `f` of what it was shown. -/
def Fair (s : Bool) (topic id : Str) (p : Nat) (f : Tree → Tree) (σ : St) : Act → Prop
  | .act r a => (r = s → Reserved topic id (σ.host s) a) ∧
      (r = !s → Action.Honest topic id p (σ.host (!s)) a ∧ Action.Obedient p f (σ.host (!s)) a)
  | .receive _ _ => True

/-- The id is new: on both hosts and between them. -/
def Fresh (σ : St) (id : Str) : Prop := ∀ r, Action.Fresh (σ.host r) id ∧ ∀ m ∈ σ.way r, idOf m.dg ≠ some id

/-- Nothing is left to do: everything published has been distributed and everything sent has been received. -/
def Settled (σ : St) : Prop := ∀ r, Bus.Idle (σ.host r).bus ∧ (σ.host r).bus.inflight = [] ∧ (σ.host r).pending = [] ∧ σ.way r = []

/-- Everything starts from nothing. -/
def Initial (σ : St) : Prop := ∀ r, (∃ name, Action.initial name = some (σ.host r)) ∧ σ.way r = []

/-- No client publishes on the response topic of an action itself. -/
def Proper (topic : Str) (σ : St) : Act → Prop
  | .act _ (.bus (.publish _ m)) => m.topic ≠ responseTopic topic
  | .act s (.bus (.pubPublish q _)) => ((σ.host s).bus.w.pub q).topic ≠ responseTopic topic
  | _ => True

end LP.Remote
