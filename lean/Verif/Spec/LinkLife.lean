import Verif.Model.LinkLife
/-!
# What a history of calls of a link amounts to

Only the calls themselves are looked at, not what they do.
-/
namespace LP.LinkLife
open LP.Link (Role)

/-- Is it a call of `Initialize`? -/
def Act.isInit : Act → Bool
  | .init _ => true
  | _ => false

/-- Is it a call of `Deinitialize`? -/
def Act.isDeinit : Act → Bool
  | .deinit => true
  | _ => false

/-- Has the link been destroyed? -/
def Dead (h : List Act) : Prop := .destroy ∈ h

/-- The last of the calls of `Initialize` and `Deinitialize`, if there was any. -/
def lastCall (h : List Act) : Option Act := h.reverse.find? (fun a => a.isInit || a.isDeinit)

/-- The calls of `Initialize` that no `Deinitialize` made up for. -/
def surplus (h : List Act) : Nat := h.countP Act.isInit - h.countP Act.isDeinit

/-- May this come after the history? `Deinitialize` only as the first one after `Initialize`; nothing may be called on a destroyed
link, and no message may come to its bus unless every `Initialize` has been made up for. -/
def Allowed (p : List Act) : Act → Prop
  | .init _ => ¬Dead p
  | .deinit => ¬Dead p ∧ ∃ l, lastCall p = some (.init l)
  | .destroy => ¬Dead p
  | .message _ => Dead p → surplus p = 0
  | _ => True

/-- Everything in the history was allowed when it came. -/
def Safe (h : List Act) : Prop := ∀ p a q, h = p ++ a :: q → Allowed p a

/-- How many contexts exist in the end: one that is still held when `Initialize` is called stays for ever. `held`: one is held now. -/
def contextsLeft (held : Bool) : List Act → Nat
  | [] => held.toNat
  | .init l :: as => held.toNat + contextsLeft l.ctx as
  | .deinit :: as => contextsLeft false as
  | _ :: as => contextsLeft held as

/-- The calls alternate, beginning with `Initialize`. `up`: the next has to be `Deinitialize`. -/
def Alternating : Bool → List Act → Prop
  | _, [] => True
  | up, .init _ :: as => up = false ∧ Alternating true as
  | up, .deinit :: as => up = true ∧ Alternating false as
  | up, _ :: as => Alternating up as

/-- The sockets a message goes out on: at most one for each role. -/
def St.outlets (σ : St) : List Nat := (σ.ptr .server true).toList ++ (σ.ptr .client true).toList

/-- The server role can be reached at `a`: its pointer for publishing (`p`) or subscribing leads to an open socket bound to it. -/
def St.bound (σ : St) (p : Bool) (a : Str) : Prop := ∃ s ∈ σ.socks, σ.ptr .server p = some s.id ∧ s.addr = some a

/-- The bus hierarchy before the link uses it: subscribers exist and are listed once, and none has the link's callback. -/
structure Neat (w : Bus.World) (b : Nat) : Prop where
  old : ∀ s ∈ (w.bus b).subs, s < w.ns
  once : (w.bus b).subs.Nodup
  other : ∀ s, (w.sub s).cb ≠ some 0

end LP.LinkLife
