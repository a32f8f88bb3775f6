import Verif.Model.Action
/-!
# Any order of calls of a SysInfo instance (src/plugins/sysinfo/SysInfo.cpp)

One instance of the plugin on a bus, whose `Initialize`, `Deinitialize` and rounds of `Run` are called in any order and any number of times,
with messages coming to the bus in between. One thing happens after the other; `Verif.Model.SysInfo` has the threads, but calls
`Initialize` and `Deinitialize` once.
-/
namespace LP.SysLife
open LP.Bus (World BMsg)

/-- The members of the instance (SysInfo.h:20-25). `bus`, `world`: its bus and the hierarchy; `config`: the entry "send-datagram" of the
configuration (C87 tells how it is read); `alive`: it has not been destroyed. Observations: `logged`, the texts written by the first
lambda (SysInfo.cpp:25); `responded`, the invocation ids passed to `Respond` (SysInfo.cpp:39); `escaped`, the number of exceptions that left
callbacks. -/
structure St where
  bus : Nat
  config : Bool
  world : World
  publisher : Option Nat
  subscriber : Option Nat
  send : Bool
  alive : Bool
  logged : List Str
  responded : List Str
  escaped : Nat

/-- Outcomes: undefined behaviour or a new state (no code of its own: outcomes of SysInfo.cpp:17-68). -/
inductive R where
  | ub
  | to (σ : St)

/-- What can happen (SysInfo.cpp:17-68, SysInfo.h:31). -/
inductive Act where
  | init
  | deinit
  /-- one round of `Run` (SysInfo.cpp:49-55) -/
  | beat
  | destroy
  /-- the subscriber loop of the instance's bus runs with a message (Bus.cpp:186-193) -/
  | message (m : BMsg)
  /-- other code creates a subscriber with a callback of its own (number above 1) on the same bus -/
  | subscribe (topic : Str) (cb : Nat)
  /-- other code deletes a subscriber; it has no pointer to the instance's -/
  | unsubscribe (s : Nat)

/-- The subscriber and publisher of `CreateActionProvider` (Bus.h:122-148); callback number 1 is the lambda in lines 137-143 with the plugin's
lambda behind it (SysInfo.cpp:30-40). The bus keeps the provider itself for ever. -/
def provide (b : Nat) (w : World) : Option World :=
  match Bus.createSubscriber b (bs "/sysinfoaction/request") none w with
  | .ok s w1 => match Bus.createPublisher b (bs "/sysinfoaction/response") w1 with
    | .ok _ w2 => some (Bus.setCallback s (some 1) w2)
    | _ => none
  | _ => none

/-- `Initialize` (SysInfo.cpp:17-43); callback number 0 is the first lambda. -/
def setUp (σ : St) : R :=
  match Bus.createPublisher σ.bus (bs "/sysinfo") σ.world with
  | .ok p w1 => match Bus.createSubscriber σ.bus (bs "/sysinfo") (some 0) w1 with
    | .ok s w2 => match provide σ.bus w2 with
      | some w3 => .to { σ with world := w3, publisher := some p, subscriber := some s, send := σ.config }
      | none => .ub
    | _ => .ub
  | _ => .ub

/-- `Deinitialize` (SysInfo.cpp:61-68). -/
def tearDown (σ : St) : R :=
  match Bus.deleteSubscriber σ.bus σ.subscriber σ.world with
  | .ok _ w1 => match Bus.deletePublisher σ.bus σ.publisher w1 with
    | .ok _ w2 => .to { σ with world := w2, subscriber := none, publisher := none }
    | _ => .ub
  | _ => .ub

/-- One round of `Run` (SysInfo.cpp:49-55): a null publisher is dereferenced. -/
def round (σ : St) : R :=
  if σ.send then
    match σ.publisher with
    | none => .ub
    | some p => match Bus.pubPublish p (.value (.str (bs "Hello Bus!"))) σ.world with
      | some m => .to { σ with world := Bus.push m σ.world }
      | none => .to σ
  else .to σ

/-- `datagram.Get<std::string>()` (SysInfo.cpp:24); `none`: it throws. -/
def textOf : Tree → Option Str
  | .value (.str s) => some s
  | _ => none

/-- The callbacks one after the other (Bus.cpp:187-193); an exception ends the loop. The lambdas convert the datagram before they use `this`
(SysInfo.cpp:24-25, Bus.h:140-142 with SysInfo.cpp:32-39). Those of other code do nothing here. -/
def callAll (m : BMsg) : List Bus.Call → St → R
  | [], σ => .to σ
  | c :: cs, σ =>
    if c.cb = 0 then match textOf m.dg with
      | some s => if σ.alive then callAll m cs { σ with logged := σ.logged ++ [s] } else .ub
      | none => .to { σ with escaped := σ.escaped + 1 }
    else if c.cb = 1 then match Action.idOf m.dg with
      | some id => if σ.alive then callAll m cs { σ with responded := σ.responded ++ [id] } else .ub
      | none => .to { σ with escaped := σ.escaped + 1 }
    else callAll m cs σ

/-- One event (SysInfo.cpp:17-68, Bus.cpp:186-193). Using a destroyed instance is undefined. -/
def step (σ : St) : Act → R
  | .init => if σ.alive then setUp σ else .ub
  | .deinit => if σ.alive then tearDown σ else .ub
  | .beat => if σ.alive then round σ else .ub
  | .destroy => if σ.alive then .to { σ with alive := false } else .ub
  | .message m => callAll m ((σ.world.bus σ.bus).subs.filterMap (Bus.offer σ.world m)) σ
  | .subscribe topic cb => match Bus.createSubscriber σ.bus topic (some (cb + 2)) σ.world with
    | .ok _ w => .to { σ with world := w }
    | _ => .ub
  | .unsubscribe s =>
    if (σ.world.sub s).cb = some 0 ∨ (σ.world.sub s).cb = some 1 then .to σ
    else match Bus.deleteSubscriber σ.bus (some s) σ.world with
      | .ok _ w => .to { σ with world := w }
      | _ => .ub

/-- Several events (no code of its own: a history of calls of PluginInstance.h:97-99 and messages). -/
def exec (σ : St) : List Act → R
  | [] => .to σ
  | a :: as => match step σ a with
    | .ub => .ub
    | .to τ => exec τ as

/-- An instance just constructed (SysInfo.cpp:8-15) on bus `b` of a hierarchy none of whose callbacks is the instance's. -/
def create (b : Nat) (config : Bool) (w : World) : St := ⟨b, config, w, none, none, false, true, [], [], 0⟩

end LP.SysLife
