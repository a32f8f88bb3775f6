import Verif.Spec.Remote
/-!
# Executions without end of two hosts joined by links
-/
namespace LP.Remote
open LP.Action (Cons Prov Ev)

/-- An execution that goes on for ever: what happens at each moment and the state before it. No undefined behaviour. -/
structure Endless (ends : Bool → End) where
  st : Nat → St
  act : Nat → Act
  ok : ∀ n, step ends (st n) (act n) = .to (st (n + 1))

variable {ends : Bool → End}

/-- Neither bus thread is ever forgotten. -/
def Endless.Fair (ρ : Endless ends) : Prop := ∀ r n, ∃ m, n ≤ m ∧ ∃ c, ρ.act m = .act r (.run c)

/-- No thread of either host stays in a call of `Publish` or `RequestAsync` for ever, and no message stays between the hosts. -/
def Endless.Prompt (ρ : Endless ends) : Prop :=
  (∀ r n, ∀ m ∈ ((ρ.st n).host r).bus.inflight,
    ∃ k i, n ≤ k ∧ ((ρ.st k).host r).bus.inflight[i]? = some m ∧ ρ.act k = .act r (.bus (.push i))) ∧
  (∀ r n, ∀ q ∈ ((ρ.st n).host r).pending, ∃ k i, n ≤ k ∧ ((ρ.st k).host r).pending[i]? = some q ∧ ρ.act k = .act r (.send i)) ∧
  ∀ r n, ∀ m ∈ (ρ.st n).way r, ∃ k i, n ≤ k ∧ ((ρ.st k).way r)[i]? = some m ∧ ρ.act k = .receive r i

/-- From moment `T` on nobody creates child buses. -/
def Endless.NoNewBuses (ρ : Endless ends) (T : Nat) : Prop :=
  ∀ n, T ≤ n → ∀ r b name, ρ.act n ≠ .act r (.bus (.createChild b name))

/-- After moment `n` the links stay in operation, consumer `x` of host `s` and provider `y` of the other host stay registered on
running buses that are not named like senders behind the link, nobody interferes with request `id`, and what provider `p` answers, if
it does, is `f` of what it was shown. -/
structure Endless.Served (ρ : Endless ends) (n : Nat) (s : Bool) (x : Cons) (y : Prov) (p : Nat) (id : Str) (f : Tree → Tree) : Prop where
  up : ∀ m, n < m → ∀ r, Up (ends r) ((ρ.st m).host r)
  live : ∀ m, n < m → Bus.Live ((ρ.st m).host s).bus.w x.sub ∧ Bus.Live ((ρ.st m).host (!s)).bus.w y.sub
  heard : ∀ m, n < m → Heard (ends s) x.pub ((ρ.st m).host s) ∧ Heard (ends (!s)) y.pub ((ρ.st m).host (!s))
  fair : ∀ m, n < m → Remote.Fair s y.topic id p f (ρ.st m) (ρ.act m)

/-- After moment `n` provider `p` of host `r` answers request `id` whenever it is shown it, at some time or other. -/
def Endless.Answers (ρ : Endless ends) (n : Nat) (r : Bool) (p : Nat) (id : Str) (f : Tree → Tree) : Prop :=
  ∀ m, n < m → ∀ k t, Ev.requested p k id t ∈ ((ρ.st m).host r).evs → ∃ m', n < m' ∧ (p, id, f t) ∈ ((ρ.st m').host r).replied

/-- The thread in the `N`-th call of `Request` on host `r` is not forgotten: it goes on, its timeout expires, or it has returned. -/
def Endless.Awake (ρ : Endless ends) (r : Bool) (N : Nat) : Prop := ∀ n, ∃ m, n ≤ m ∧ (N < ((ρ.st n).host r).frames.length →
  ρ.act m = .act r (.wait N) ∨ ρ.act m = .act r (.timeout N) ∨ ∃ g, ((ρ.st m).host r).frames[N]? = some g ∧ g.pc = .done)

end LP.Remote
