import Verif.Spec.GridOrder
/-!
# Executions without end of networks of hosts
-/
namespace LP.Grid
open LP.Bus (BMsg)
open LP.Net (Hop)

/-- An execution that goes on for ever: what happens at each moment and the state before it. -/
structure Endless (net : List Hop) (e : Ends) where
  st : Nat → St
  act : Nat → Act
  ok : ∀ n, step net e (st n) (act n) = some (st (n + 1))

variable {net : List Hop} {e : Ends}

/-- No bus thread of the given hosts is forgotten. -/
def Endless.Fair (ρ : Endless net e) (ns : List Nat) : Prop := ∀ v ∈ ns, ∀ n, ∃ m, n ≤ m ∧ ∃ c, ρ.act m = .act v (.run c)

/-- No thread of the given hosts stays in a call of `Publish` for ever, and nothing that was sent stays on its way for ever. -/
def Endless.Prompt (ρ : Endless net e) (ns : List Nat) : Prop :=
  (∀ v ∈ ns, ∀ n, ∀ m ∈ ((ρ.st n).host v).inflight,
    ∃ k i, n ≤ k ∧ ((ρ.st k).host v).inflight[i]? = some m ∧ ρ.act k = .act v (.push i)) ∧
  ∀ n, ∀ x ∈ (ρ.st n).way, ∃ k i, n ≤ k ∧ (ρ.st k).way[i]? = some x ∧ ρ.act k = .receive i

/-- From moment `T` on nobody creates child buses. -/
def Endless.NoNewBuses (ρ : Endless net e) (T : Nat) : Prop := ∀ n, T ≤ n → ∀ v b name, ρ.act n ≠ .act v (.createChild b name)

/-- The network is in operation from the silence on and for ever: links receive in order and stay in operation, the hosts' root buses
stay running, messages of clients do not look like those of links, no callback throws, child buses are created only for some time, and
no thread is forgotten. -/
structure Endless.Operating (ρ : Endless net e) (ns : List Nat) : Prop where
  silent : Silent (ρ.st 0)
  up : ∀ n, Up net e (ρ.st n)
  ordered : ∀ n, Ordered (ρ.st n) (ρ.act n)
  proper : ∀ n, Proper net (ρ.st n)
  running : ∀ n, ∀ v ∈ ns, (((ρ.st n).host v).w.bus 0).running = true
  started : ∀ v ∈ ns, ((ρ.st 0).host v).phase ≠ .off
  calm : ∀ n v, ρ.act n ≠ .act v (.run .throwing)
  shape : ∃ T, ρ.NoNewBuses T
  fair : ρ.Fair ns
  prompt : ρ.Prompt ns

/-- Subscriber `s` of host `v` exists from the beginning and is served for ever. -/
def Endless.Listens (ρ : Endless net e) (v s : Nat) : Prop := s < ((ρ.st 0).host v).w.ns ∧ ∀ n, Bus.Live ((ρ.st n).host v).w s

/-- The messages of the topic of subscriber `s` of host `v`. -/
def Endless.wants (ρ : Endless net e) (v s : Nat) (m : BMsg) : Bool := decide (Bus.TopicRule (((ρ.st 0).host v).w.sub s).topic m.topic)

/-- How many messages have been published on the given hosts. -/
def total (ns : List Nat) (σ : St) : Nat := (ns.map (fun v => (σ.host v).published.length)).sum

end LP.Grid
