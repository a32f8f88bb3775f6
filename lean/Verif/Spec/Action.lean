import Verif.Model.Action
import Verif.Spec.Bus
/-!
# What the action properties talk about
-/
namespace LP.Action
open LP.Bus (Delivery)

/-- The state can be reached from a fresh hierarchy by some sequence of events. -/
def Reachable (σ : St) : Prop := ∃ name σ₀ as, initial name = some σ₀ ∧ exec σ₀ as = .to σ

/-- No consumer registered the same invocation id twice. -/
def Distinct (σ : St) : Prop := (σ.asked.map (fun a => (a.cons, a.id))).Nodup

/-- The invocations of callbacks for request `id` of consumer `c`, in order. -/
def answers (c : Nat) (id : Str) (evs : List Ev) : List Ev :=
  evs.filter (fun e => match e with
    | .answered c' id' _ _ => c' == c && id' == id
    | .requested .. => false)

/-- The deliveries that bring a response for `id` to a subscriber, in order. -/
def responses (sub : Nat) (id : Str) (log : List Delivery) : List Delivery :=
  log.filter (fun d => d.sub == sub && idOf d.msg.dg == some id)

/-- The bus step from `σ` to `σ'` invoked the callback of a subscriber: delivery `d`. -/
def Delivers (σ σ' : St) (d : Delivery) : Prop := σ'.bus.log = σ.bus.log ++ [d]

/-- The content of an invocation of a consumer's callback. -/
def Ev.content : Ev → Tree
  | .answered _ _ _ t => t
  | .requested _ _ _ t => t

/-- How far the bus thread is in the callback for request `id` of consumer `c`, if it is in it. -/
def stageOf (c : Nat) (id : Str) : Cur → Option Stage
  | .answering c' id' _ _ st => if c' = c ∧ id' = id then some st else none
  | _ => none

/-- The response that has been assigned to the local variable `response` of a blocking request (line 58 of
ActionConsumer.cpp has been executed): that of the first invocation of its callback. -/
def stored (σ : St) (c : Nat) (id : Str) : Option Tree :=
  match (answers c id σ.evs).head? with
  | none => none
  | some e => match stageOf c id σ.cur with
    | some .test => none
    | some .store => none
    | _ => some e.content

/-- The waiting thread has been told (line 59 of ActionConsumer.cpp has been executed). -/
def signalled (σ : St) (c : Nat) (id : Str) : Bool :=
  match stageOf c id σ.cur with
  | some .flag => false
  | _ => (stored σ c id).isSome

/-- Every event of the execution, together with the state it happens in, satisfies `P`. -/
def Along (P : St → Act → Prop) : St → List Act → Prop
  | _, [] => True
  | σ, a :: as => P σ a ∧ ∀ σ', step σ a = .to σ' → Along P σ' as

/-- Every state passed through satisfies `P`. -/
def Throughout (P : St → Prop) : St → List Act → Prop
  | σ, [] => P σ
  | σ, a :: as => P σ ∧ ∀ σ', step σ a = .to σ' → Throughout P σ' as

/-- The message is on one of the two topics of an action and bears this id. -/
def Bears (topic id : Str) (m : Bus.BMsg) : Prop :=
  (m.topic = requestTopic topic ∨ m.topic = responseTopic topic) ∧ idOf m.dg = some id

/-- The id has not been used yet. -/
def Fresh (σ : St) (id : Str) : Prop :=
  (∀ m ∈ σ.bus.inflight ++ σ.bus.published, idOf m.dg ≠ some id) ∧ (∀ a ∈ σ.asked, a.id ≠ id) ∧ ∀ r ∈ σ.replied, r.2.1 ≠ id

/-- Nobody interferes with request `id` on this topic: no other message bears its id, no other request uses it, no other
provider of the topic answers it, the provider `p` is not reset, and no callback throws. -/
def Honest (topic id : Str) (p : Nat) (σ : St) : Act → Prop
  | .bus (.publish _ m) => ¬ Bears topic id m
  | .bus (.pubPublish q d) => ∀ sender, ¬ Bears topic id ⟨sender, (σ.bus.w.pub q).topic, d⟩
  | .request _ id' _ _ => id' ≠ id
  | .begin _ id' _ _ => id' ≠ id
  | .respond p' id' _ => id' = id → (∃ y, σ.provs[p']? = some y ∧ y.topic = topic) → p' = p
  | .resetProvider p' => p' ≠ p
  | .run .throwing => False
  | _ => True

/-- Provider `p` only responds to requests it has received, with the function `f` of what it received. -/
def Obedient (p : Nat) (f : Tree → Tree) (σ : St) (a : Act) : Prop :=
  ∀ id u, a = .respond p id u → ∃ k t, Ev.requested p k id t ∈ σ.evs ∧ u = f t

/-- The bus of a publisher is attached to its hierarchy. -/
def Attached (q : Nat) (b : Bus.St) : Prop := (b.w.bus (b.w.pub q).bus).attached = true

end LP.Action
