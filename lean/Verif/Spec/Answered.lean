import Verif.Spec.Action
/-!
# Executions without end in which threads are not forgotten
-/
namespace LP.Action
open LP.Bus (BMsg)

/-- An execution that goes on for ever: what happens at each moment and the state before it. No undefined behaviour. -/
structure Endless where
  st : Nat → St
  act : Nat → Act
  ok : ∀ n, step (st n) (act n) = .to (st (n + 1))

/-- The bus thread is never forgotten. -/
def Endless.Fair (ρ : Endless) : Prop := ∀ n, ∃ m, n ≤ m ∧ ∃ c, ρ.act m = .run c

/-- No thread stays in a call of `Publish` or `RequestAsync` for ever. -/
def Endless.Prompt (ρ : Endless) : Prop :=
  (∀ n, ∀ m ∈ (ρ.st n).bus.inflight, ∃ k i, n ≤ k ∧ (ρ.st k).bus.inflight[i]? = some m ∧ ρ.act k = .bus (.push i)) ∧
  ∀ n, ∀ q ∈ (ρ.st n).pending, ∃ k i, n ≤ k ∧ (ρ.st k).pending[i]? = some q ∧ ρ.act k = .send i

/-- From moment `T` on nobody creates child buses. -/
def Endless.NoNewBuses (ρ : Endless) (T : Nat) : Prop := ∀ n, T ≤ n → ∀ b name, ρ.act n ≠ .bus (.createChild b name)

/-- After moment `n` consumer `x` and provider `y` stay registered on running buses, nobody interferes with request `id`, and
what provider `p` answers, if it does, is `f` of what it was shown. -/
structure Endless.Served (ρ : Endless) (n : Nat) (x : Cons) (y : Prov) (p : Nat) (id : Str) (f : Tree → Tree) : Prop where
  live : ∀ m, n < m → Bus.Live (ρ.st m).bus.w x.sub ∧ Bus.Live (ρ.st m).bus.w y.sub
  attached : ∀ m, n < m → Attached x.pub (ρ.st m).bus ∧ Attached y.pub (ρ.st m).bus
  honest : ∀ m, n < m → Honest y.topic id p (ρ.st m) (ρ.act m)
  obey : ∀ m, n < m → Obedient p f (ρ.st m) (ρ.act m)

/-- After moment `n` provider `p` answers request `id` whenever it is shown it, at some time or other. -/
def Endless.Answers (ρ : Endless) (n p : Nat) (id : Str) (f : Tree → Tree) : Prop :=
  ∀ m, n < m → ∀ k t, Ev.requested p k id t ∈ (ρ.st m).evs → ∃ m', n < m' ∧ (p, id, f t) ∈ (ρ.st m').replied

/-- The thread in the `N`-th call of `Request` is not forgotten: it goes on, its timeout expires, or it has returned. -/
def Endless.Awake (ρ : Endless) (N : Nat) : Prop := ∀ n, ∃ m, n ≤ m ∧ (N < (ρ.st n).frames.length →
  ρ.act m = .wait N ∨ ρ.act m = .timeout N ∨ ∃ g, (ρ.st m).frames[N]? = some g ∧ g.pc = .done)

end LP.Action
