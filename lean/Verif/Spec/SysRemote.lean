import Verif.Model.SysRemote
import Verif.Spec.RemoteEndless
import Verif.Spec.SysInfo
/-!
# What is said about the SysInfo plugin on another host
-/
namespace LP.SysRemote
open LP.Remote (End Up Heard)
open LP.Action (Cons Prov)

/-- An execution that goes on for ever, without undefined behaviour. -/
structure Endless (ends : Bool → End) where
  st : Nat → St
  act : Nat → Act
  ok : ∀ n, step ends (st n) (act n) = .to (st (n + 1))

variable {ends : Bool → End}

/-- Neither bus thread is ever forgotten; inside the plugin's lambdas the bus thread executes the plugin's code. -/
def Endless.Fair (ρ : Endless ends) : Prop :=
  (∀ n, ∃ m, n ≤ m ∧ ∃ c, ρ.act m = .peer (.run c)) ∧
  ∀ n, ∃ m, n ≤ m ∧ (ρ.act m = .sys .code ∨ ∃ c, ρ.act m = .sys (.world (.run c)))

/-- No thread of either host stays in a call of `Publish` or `RequestAsync` for ever, and no message stays between the hosts. -/
structure Endless.Prompt (ρ : Endless ends) : Prop where
  push : ∀ n, ∀ m ∈ (ρ.st n).peer.bus.inflight, ∃ k i, n ≤ k ∧ (ρ.st k).peer.bus.inflight[i]? = some m ∧ ρ.act k = .peer (.bus (.push i))
  send : ∀ n, ∀ q ∈ (ρ.st n).peer.pending, ∃ k i, n ≤ k ∧ (ρ.st k).peer.pending[i]? = some q ∧ ρ.act k = .peer (.send i)
  sysPush : ∀ n, ∀ m ∈ (ρ.st n).sys.world.bus.inflight,
    ∃ k i, n ≤ k ∧ (ρ.st k).sys.world.bus.inflight[i]? = some m ∧ ρ.act k = .sys (.world (.bus (.push i)))
  sysSend : ∀ n, ∀ q ∈ (ρ.st n).sys.world.pending,
    ∃ k i, n ≤ k ∧ (ρ.st k).sys.world.pending[i]? = some q ∧ ρ.act k = .sys (.world (.send i))
  cross : ∀ r n, ∀ m ∈ (ρ.st n).way r, ∃ k i, n ≤ k ∧ ((ρ.st k).way r)[i]? = some m ∧ ρ.act k = .receive r i

/-- From moment `T` on nobody creates child buses. -/
def Endless.NoNewBuses (ρ : Endless ends) (T : Nat) : Prop :=
  ∀ n, T ≤ n → ∀ b name, ρ.act n ≠ .peer (.bus (.createChild b name)) ∧ ρ.act n ≠ .sys (.world (.bus (.createChild b name)))

/-- After moment `n` the links stay in operation, consumer `x` and the plugin's provider `y` stay registered on running buses that are
not named like senders behind the link, nobody else uses request id `id` for "/sysinfoaction", no callback of others throws, and only
strings are published on "/sysinfo". -/
structure Endless.Served (ρ : Endless ends) (n : Nat) (x : Cons) (y : Prov) (p : Nat) (id : Str) : Prop where
  up : ∀ m, n < m → Up (ends false) (ρ.st m).peer ∧ Up (ends true) (ρ.st m).sys.world
  live : ∀ m, n < m → Bus.Live (ρ.st m).peer.bus.w x.sub ∧ Bus.Live (ρ.st m).sys.world.bus.w y.sub
  heard : ∀ m, n < m → Heard (ends false) x.pub (ρ.st m).peer ∧ Heard (ends true) y.pub (ρ.st m).sys.world
  reserved : ∀ m, n < m → ∀ a, ρ.act m = .peer a → Remote.Reserved (bs "/sysinfoaction") id (ρ.st m).peer a
  honest : ∀ m, n < m → ∀ a, ρ.act m = .sys (.world a) → Action.Honest (bs "/sysinfoaction") id p (ρ.st m).sys.world a
  strings : ∀ m, n < m → ∀ msg ∈ (ρ.st m).sys.world.bus.published, msg.topic = bs "/sysinfo" → ∃ s, msg.dg = .value (.str s)

/-- The id is new: on both hosts and between them. -/
def Fresh (σ : St) (id : Str) : Prop :=
  Action.Fresh σ.peer id ∧ Action.Fresh σ.sys.world id ∧ ∀ r, ∀ m ∈ σ.way r, Action.idOf m.dg ≠ some id

/-- The thread in the `N`-th call of `Request` on the first host is not forgotten: it goes on, its timeout expires, or it has returned. -/
def Endless.Awake (ρ : Endless ends) (N : Nat) : Prop := ∀ n, ∃ m, n ≤ m ∧ (N < (ρ.st n).peer.frames.length →
  ρ.act m = .peer (.wait N) ∨ ρ.act m = .peer (.timeout N) ∨ ∃ g, (ρ.st m).peer.frames[N]? = some g ∧ g.pc = .done)

end LP.SysRemote
