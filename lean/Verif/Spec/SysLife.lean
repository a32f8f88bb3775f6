import Verif.Model.SysLife
/-!
# What a history of calls of a SysInfo instance amounts to

Only the calls themselves are looked at, not what they do.
-/
namespace LP.SysLife

/-- Is it a call of `Initialize`? -/
def Act.isInit : Act → Bool
  | .init => true
  | _ => false

/-- Is it a call of `Deinitialize`? -/
def Act.isDeinit : Act → Bool
  | .deinit => true
  | _ => false

/-- Has the instance been destroyed? -/
def Dead (h : List Act) : Prop := .destroy ∈ h

/-- Was the last of the calls of `Initialize` and `Deinitialize` one of `Initialize`? -/
def Up (h : List Act) : Prop := ∃ p q, h = p ++ .init :: q ∧ ∀ a ∈ q, a.isInit = false ∧ a.isDeinit = false

/-- How often `Initialize` was called. -/
def inits (h : List Act) : Nat := h.countP Act.isInit

/-- The calls of `Initialize` that no `Deinitialize` made up for. -/
def surplus (h : List Act) : Nat := h.countP Act.isInit - h.countP Act.isDeinit

/-- May this come after the history? `Deinitialize` only as the first one after `Initialize`; a round of `Run` not between `Deinitialize` and
the next `Initialize` if the instance is configured to send; nothing may be called on a destroyed instance. Then neither may a string be
published on "/sysinfo", unless every `Initialize` has been made up for, nor an action be requested, unless there never was an
`Initialize`. -/
def Allowed (config : Bool) (p : List Act) : Act → Prop
  | .init => ¬Dead p
  | .deinit => ¬Dead p ∧ Up p
  | .beat => ¬Dead p ∧ (config = true → inits p = 0 ∨ Up p)
  | .destroy => ¬Dead p
  | .message m => Dead p → ¬(m.topic = bs "/sysinfo" ∧ (∃ s, m.dg = .value (.str s)) ∧ surplus p ≠ 0) ∧
      ¬(m.topic = bs "/sysinfoaction/request" ∧ Action.idOf m.dg ≠ none ∧ inits p ≠ 0)
  | _ => True

/-- Everything in the history was allowed when it came. -/
def Safe (config : Bool) (h : List Act) : Prop := ∀ p a q, h = p ++ a :: q → Allowed config p a

/-- The bus hierarchy before the instance uses it: subscribers and publishers exist and are listed once, and none has the instance's
callbacks. -/
structure Neat (w : Bus.World) (b : Nat) : Prop where
  old : ∀ s ∈ (w.bus b).subs, s < w.ns
  once : (w.bus b).subs.Nodup
  other : ∀ s, (w.sub s).cb ≠ some 0 ∧ (w.sub s).cb ≠ some 1
  oldPubs : ∀ p ∈ (w.bus b).pubs, p < w.np
  oncePubs : (w.bus b).pubs.Nodup

end LP.SysLife
