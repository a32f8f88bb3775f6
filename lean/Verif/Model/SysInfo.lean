import Verif.Model.Action
import Verif.Model.Link
/-!
# The example plugin SysInfo (src/plugins/sysinfo/SysInfo.cpp, SysInfo.h)

One instance of the plugin inside a bus hierarchy in which arbitrary other threads and callbacks act
(`Verif.Model.Action`). The plugin's own code, which runs on the host's thread (`Initialize`, `Deinitialize`, destructor),
on its worker thread (`Run`) and on the bus thread (the two lambdas), is followed statement by statement as far as it
touches the bus. Simplifications: log output is left out, and so is printing the request (SysInfo.cpp:32-35); the worker
publishes only between `Initialize` and `Deinitialize`, the host having stopped it before (PluginTemplate.cpp:59-65,
see `Verif.Model.Worker`).
-/
namespace LP.SysInfo
open LP.Action (Next)

/-- The topic of the messages (SysInfo.cpp:19, 21). -/
def topic : Str := bs "/sysinfo"
/-- The topic of the action (SysInfo.cpp:29). -/
def actionTopic : Str := bs "/sysinfoaction"
/-- The message sent periodically (SysInfo.cpp:51). -/
def greeting : Tree := .value (.str (bs "Hello Bus!"))
/-- The response to every request (SysInfo.cpp:37). -/
def reply : Tree := .value (.str (bs "This is the response message."))

/-- `GetCustomConfiguration().Get<bool>("send-datagram", false)` (SysInfo.cpp:42). -/
def configure (cfg : Nat) : M Heap Bool := do
  let v ← Datagram.pathGet cfg .bool (bs "send-datagram") (.bool false)
  pure (Link.flag v)

/-- How far the life of the instance has got (SysInfo.cpp:8-68). -/
inductive Life where
  /-- inside `Initialize`, the next statement is number `n`: the publisher (SysInfo.cpp:19), the subscriber (20-26), and
  the three parts of creating the action provider (28-40, Bus.h:125-135) -/
  | initialising (n : Nat)
  /-- initialised -/
  | loaded
  /-- inside `Deinitialize`, the subscriber is deleted (SysInfo.cpp:63-64) -/
  | unsubscribed
  /-- after `Deinitialize` (SysInfo.cpp:66-67) -/
  | deinitialised
  /-- the object has been destroyed (PluginTemplate.cpp:56) -/
  | destroyed
  deriving DecidableEq

/-- The instance: its bus, whether it sends, and the objects it has created so far (SysInfo.h:20-25, Bus.h:125-126).
`said`: the lambda of the action provider has called `Respond` in the invocation that is running. -/
structure St where
  world : Action.St
  bus : Nat
  send : Bool
  pub : Option Nat
  sub : Option Nat
  rsub : Option Nat
  rpub : Option Nat
  prov : Option Nat
  life : Life
  said : Bool

/-- What can happen (SysInfo.cpp:17-68). -/
inductive Act where
  /-- anything that other code does, and the bus thread outside the plugin's lambdas -/
  | world (a : Action.Act)
  /-- `Initialize` goes on (SysInfo.cpp:17-43) -/
  | init
  /-- one round of `Run` (SysInfo.cpp:49-55) -/
  | beat
  /-- `Deinitialize` goes on (SysInfo.cpp:61-68) -/
  | deinit
  /-- the instance is destroyed (PluginTemplate.cpp:56) -/
  | destroy
  /-- the bus thread goes on inside one of the plugin's lambdas -/
  | code

/-- The lambdas run when the private subscribers are called: the bus thread is inside one of them
(SysInfo.cpp:22-26, 30-40). -/
def mine (σ : St) : Bool :=
  match σ.world.cur with
  | .providing p _ => σ.prov == some p
  | .plain => match σ.world.bus.log.getLast? with
    | some d => σ.sub == some d.sub
    | none => false
  | _ => false

/-- Would this event of other code use an object that only the plugin has a pointer to (the shared pointers of SysInfo.h:20-23
and Bus.h:125-126, 128-135 are not handed out)? -/
def touches (σ : St) : Action.Act → Bool
  | .bus (.deleteSub _ s) => σ.sub == some s || σ.rsub == some s
  | .bus (.setCb s _) => σ.sub == some s || σ.rsub == some s
  | .bus (.deletePub _ q) => σ.pub == some q || σ.rpub == some q
  | .bus (.pubPublish q _) => σ.pub == some q || σ.rpub == some q
  | .consumer q s _ => σ.pub == some q || σ.rpub == some q || σ.sub == some s || σ.rsub == some s
  | .provider s q _ _ => σ.pub == some q || σ.rpub == some q || σ.sub == some s || σ.rsub == some s
  | .resetProvider p => σ.prov == some p
  | .respond p _ _ => σ.prov == some p
  | _ => false

/-- Events of the code that the bus thread is executing in a callback (`Verif.Model.Action`): leaving the callback and calling `Request`
in it. Inside the plugin's lambdas the code is known, it is `code` (SysInfo.cpp:22-26, 30-40). -/
def byCallback : Action.Act → Bool
  | .run _ => true
  | .begin _ _ _ onBus => onBus
  | _ => false

/-- Lift the result of an event of the hierarchy (no code of its own: the calls in SysInfo.cpp:17-68). -/
def lift (r : Next Action.St) (k : Action.St → St) : Next St :=
  match r with
  | .cannot => .cannot
  | .undefined => .undefined
  | .to w => .to (k w)

/-- Whether `datagram.Get<std::string>()` (SysInfo.cpp:24) returns; it throws otherwise. -/
def isString : Tree → Bool
  | .value (.str _) => true
  | _ => false

/-- The statements of `Initialize` (SysInfo.cpp:19-40, Bus.h:125-135). The callback numbers 0 stand for the plugin's
lambdas. -/
def initStep (σ : St) : Nat → Next St
  | 0 => lift (Action.step σ.world (.bus (.createPub σ.bus topic)))
      (fun w => { σ with world := w, pub := some σ.world.bus.w.np, life := .initialising 1 })
  | 1 => lift (Action.step σ.world (.bus (.createSub σ.bus topic (some 0))))
      (fun w => { σ with world := w, sub := some σ.world.bus.w.ns, life := .initialising 2 })
  | 2 => lift (Action.step σ.world (.bus (.createSub σ.bus (Action.requestTopic actionTopic) none)))
      (fun w => { σ with world := w, rsub := some σ.world.bus.w.ns, life := .initialising 3 })
  | 3 => lift (Action.step σ.world (.bus (.createPub σ.bus (Action.responseTopic actionTopic))))
      (fun w => { σ with world := w, rpub := some σ.world.bus.w.np, life := .initialising 4 })
  | 4 => match σ.rsub, σ.rpub with
    | some s, some q => lift (Action.step σ.world (.provider s q actionTopic (some 0)))
        (fun w => { σ with world := w, prov := some σ.world.provs.length, life := .loaded })
    | _, _ => .cannot
  | _ => .cannot

/-- The bus thread inside one of the lambdas (SysInfo.cpp:22-26, 30-40). Both use `this`: if the instance no longer
exists that is undefined behaviour. The subscriber's lambda ends normally if the message is a string, and by the
exception of `Get` otherwise; the provider's lambda responds and ends. -/
def codeStep (σ : St) : Next St :=
  if mine σ = false then .cannot
  else if σ.life = .destroyed then .undefined
  else match σ.world.cur with
    | .providing p id =>
      if σ.said then lift (Action.step σ.world (.run .go)) (fun w => { σ with world := w, said := false })
      else lift (Action.step σ.world (.respond p id reply)) (fun w => { σ with world := w, said := true })
    | _ => match σ.world.bus.log.getLast? with
      | some d =>
        lift (Action.step σ.world (.run (if isString d.msg.dg then .go else .throwing))) (fun w => { σ with world := w })
      | none => .cannot

/-- One event (SysInfo.cpp:17-68, PluginTemplate.cpp:49-57). -/
def step (σ : St) : Act → Next St
  | .world a =>
    if touches σ a = true ∨ (mine σ = true ∧ byCallback a = true) then .cannot
    else lift (Action.step σ.world a) (fun w => { σ with world := w })
  | .init => match σ.life with
    | .initialising n => initStep σ n
    | _ => .cannot
  | .beat =>
    if σ.life = .loaded ∧ σ.send = true then
      match σ.pub with
      | some q => lift (Action.step σ.world (.bus (.pubPublish q greeting))) (fun w => { σ with world := w })
      | none => .undefined
    else .cannot
  | .deinit => match σ.life with
    | .loaded => match σ.sub with
      | some s => lift (Action.step σ.world (.bus (.deleteSub σ.bus s))) (fun w => { σ with world := w, life := .unsubscribed })
      | none => .undefined
    | .unsubscribed => match σ.pub with
      | some q => lift (Action.step σ.world (.bus (.deletePub σ.bus q))) (fun w => { σ with world := w, life := .deinitialised })
      | none => .undefined
    | _ => .cannot
  | .destroy => if σ.life = .deinitialised then .to { σ with life := .destroyed } else .cannot
  | .code => codeStep σ

/-- An instance that was just constructed with bus `bus` (SysInfo.cpp:8-15) in a hierarchy in which no callback is running yet. -/
def create (w : Action.St) (bus : Nat) (send : Bool) : St :=
  ⟨w, bus, send, none, none, none, none, none, .initialising 0, false⟩

/-- Execute a sequence of events (no code of its own: an interleaving of SysInfo.cpp:17-68). -/
def exec (σ : St) : List Act → Next St
  | [] => .to σ
  | a :: as => match step σ a with
    | .cannot => .cannot
    | .undefined => .undefined
    | .to σ' => exec σ' as

end LP.SysInfo
