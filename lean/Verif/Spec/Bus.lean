import Verif.Model.BusConc
/-!
# What the bus properties talk about
-/
namespace LP.Bus

/-- `c` is a direct child of `b`. -/
def Child (w : World) (b c : Nat) : Prop := ∃ name, (w.bus b).children.find name = some c

/-- `b` is `a` or lies below `a`. -/
inductive Anc (w : World) : Nat → Nat → Prop
  | refl (a : Nat) : Anc w a a
  | step {a b c : Nat} : Anc w a b → Child w b c → Anc w a c

/-- Every bus from `a` down to `b`, both included, is running. -/
inductive RunPath (w : World) : Nat → Nat → Prop
  | refl {a : Nat} : (w.bus a).running = true → RunPath w a a
  | step {a b c : Nat} : RunPath w a b → Child w b c → (w.bus c).running = true → RunPath w a c

mutual
/-- The buses of the running part of the hierarchy below `b` in the order a message visits them: a bus before its
children, the children (with everything below them) in the order of their names. -/
inductive Order (w : World) : Nat → List Nat → Prop
  | stopped {b : Nat} : (w.bus b).running = false → Order w b []
  | running {b : Nat} {l : List Nat} : (w.bus b).running = true → OrderL w (w.bus b).children l → Order w b (b :: l)
/-- The same for several children one after the other. -/
inductive OrderL (w : World) : List (Str × Nat) → List Nat → Prop
  | nil : OrderL w [] []
  | cons {k : Str} {c : Nat} {cs : List (Str × Nat)} {l l' : List Nat} :
      Order w c l → OrderL w cs l' → OrderL w ((k, c) :: cs) (l ++ l')
end

/-- The topic rule, independent of the matcher's code: equal, or the pattern is the one known wildcard. -/
def TopicRule (pattern topic : Str) : Prop := pattern = topic ∨ pattern = bs "/**/*"

instance (pattern topic : Str) : Decidable (TopicRule pattern topic) := inferInstanceAs (Decidable (_ ∨ _))

/-- The numbers `i` with `k ≤ i < n` of the published messages a subscriber with the given topic is to receive. -/
def due (topic : Str) (published : List BMsg) (k n : Nat) : List Nat :=
  (List.range' k (n - k)).filter (fun i => match published[i]? with
    | some m => decide (TopicRule topic m.topic)
    | none => false)

/-- In the log, delivery of message `i` to `s` comes before delivery of message `j` to `s'`. -/
def Before (log : List Delivery) (s i s' j : Nat) : Prop :=
  ∃ l1 d l2 e l3, log = l1 ++ d :: l2 ++ e :: l3 ∧ d.sub = s ∧ d.idx = i ∧ e.sub = s' ∧ e.idx = j

/-- The state can be reached from a fresh hierarchy by some sequence of events. -/
def Reachable (σ : St) : Prop := ∃ name σ₀ as, initial name = some σ₀ ∧ exec σ₀ as = some σ

/-- Messages drained from the queue but not yet taken up by the loop. -/
def Phase.batch : Phase → List BMsg
  | .loop b => b
  | .visit _ _ _ b => b
  | _ => []

/-- Subscriber `s` is registered on its bus with a callback, and that bus and all above it are running. -/
def Live (w : World) (s : Nat) : Prop :=
  s ∈ (w.bus (w.sub s).home).subs ∧ (w.sub s).cb ≠ none ∧ RunPath w 0 (w.sub s).home

/-- Every state passed through by the execution, the first and the last included, satisfies `P`. -/
def Throughout (P : St → Prop) : St → List Act → Prop
  | σ, [] => P σ
  | σ, a :: as => P σ ∧ ∀ σ', step σ a = some σ' → Throughout P σ' as

/-- The numbers of the messages delivered to `s`, in order. -/
def received (s : Nat) (log : List Delivery) : List Nat := (log.filter (fun d => d.sub = s)).map Delivery.idx

/-- The bus has nothing left to do: no distribution in progress, nothing drained, nothing queued. -/
def Idle (σ : St) : Prop :=
  σ.w.queue = [] ∧ σ.phase.batch = [] ∧ ∀ m st cb b, σ.phase ≠ .visit m st cb b

end LP.Bus
