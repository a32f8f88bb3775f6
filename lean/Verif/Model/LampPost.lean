import Verif.Model.Plugin
import Verif.Model.Query
import Verif.Model.Json
/-!
# The host: configuration processing, `Start` and `Stop` (src/lamppost/LampPost.cpp)

The datagrams are those of the Datagram layer: `config` and the `mCustomConfiguration` of every plugin are variables of
the object graph. Log output other than the report of a failed plugin is dropped. `SettingsManager` is empty
(SettingsManager.cpp:18-20) and left out.
-/
namespace LP.Host
open Plugin (Out)

/-- What the host does to plugins, in order. `cfg` is the instance's custom configuration: in the model the variable
holding it (LampPost.cpp:48-65). -/
inductive Note (C : Type) where
  /-- `Initialize` is called on the instance `name` (LampPost.cpp:56) -/
  | initialized (name : Str) (cfg : C)
  /-- `Start` is called on it (LampPost.cpp:59) -/
  | started (name : Str)
  /-- a failure to instantiate `type` with `cfg` is logged (LampPost.cpp:97-105) -/
  | reported (type : Str) (cfg : C)

/-- `RunState` (RunState.h:7-13). -/
inductive RunState where
  | unknown
  | running
  | stopped
  deriving DecidableEq

/-- A `LampPost` object (LampPost.h:20-44) with the datagrams of the process: `vars` is the number of datagram
variables used so far, `rootBus` is `mRootBus` (`none`: null). -/
structure St where
  data : DState
  vars : Nat
  mgr : Plugin.Manager
  rootBus : Option Nat
  runState : RunState
  notes : List (Note Nat)

/-- Run a datagram computation. Simplification: exhausting the recursion bound counts as undefined; the theorems show
that it does not happen. (Embedding of the calls in LampPost.cpp:73-91.) -/
def onData {α β : Type} (m : M DState α) (k : α → St → Out St β) (st : St) : Out St β :=
  match m st.data with
  | .ok a d => k a { st with data := d }
  | .throw e d => .throw e { st with data := d }
  | .ub => .ub
  | .fuel => .ub

/-- A reading call on `x[p]` (LampPost.cpp:75, 77, 86, 88): the chain of `operator[]` may create entries. -/
def ask {α : Type} (x : Nat) (p : List Sel) (m : Nat → M Heap α) : M DState α := fun s =>
  match s.env x with
  | none => .ub
  | some a => match (follow p a >>= m) s.heap with
    | .ok r h => .ok r ⟨h, s.env⟩
    | .throw e h => .throw e ⟨h, s.env⟩
    | .ub => .ub
    | .fuel => .fuel

/-- `LampPost::InstantiatePlugin` (LampPost.cpp:48-65); `cfg` is the variable of the custom configuration. Simplification:
the copies of the configuration made on the way are one; `Initialize` acts on nothing that is modelled; `Start` is
`Verif.Model.Worker`. -/
def instantiatePlugin (early : Bool) (type : Str) (cfg : Nat) (st : St) : Out St Unit :=
  match Plugin.instantiateTemplate early type none st.mgr with
  | .ok (some (name, inst)) m =>
    match inst.initExn with
    | some e => .throw e { st with mgr := m, notes := st.notes ++ [.initialized name cfg] }
    | none => .ok () { st with mgr := m, notes := st.notes ++ [.initialized name cfg, .started name] }
  | .ok none m => .throw .operationFailed { st with mgr := m }
  | .throw e m => .throw e { st with mgr := m }
  | .ub => .ub
  | .terminate => .terminate

/-- The body of the try block and its handler (LampPost.cpp:93-105). -/
def tryPlugin (early : Bool) (type : Str) (cfg : Nat) (st : St) : Out St Unit :=
  match instantiatePlugin early type cfg st with
  | .throw .operationFailed st1 => .ok () { st1 with notes := st1.notes ++ [.reported type cfg] }
  | r => r

/-- The text in a value that was read as a string (LampPost.cpp:88). -/
def textOf : Val → Str
  | .str s => s
  | _ => []

/-- Position of the i-th plugin entry (LampPost.cpp:86-91). -/
def entryAt (i : Nat) : List Sel := [.key (bs "plugins"), .idx (BitVec.ofNat 32 i)]

/-- The loop over the plugin entries (LampPost.cpp:84-107): `n` entries remain, `i` is the loop variable, `c` the
variable `config`. `pluginConfiguration` is a new variable holding an Empty datagram (line 90), assigned from
`config["plugins"][i]["configuration"]` (line 91), which is created if missing. -/
def entries (early : Bool) (c : Nat) : Nat → Nat → St → Out St Unit
  | 0, _, st => .ok () st
  | n + 1, i, st =>
    onData (ask c (entryAt i) (fun b => Datagram.keyExists b (bs "type"))) (fun has st1 =>
      if has then
        onData (ask c (entryAt i ++ [.key (bs "type")]) (fun b => Datagram.getVal b .str)) (fun v st2 =>
          let x := st2.vars
          onData (Stmt.run (.decl x .empty)) (fun _ st3 =>
            onData (Stmt.run (.assignFrom x c (entryAt i ++ [.key (bs "configuration")]))) (fun _ st4 =>
              match tryPlugin early (textOf v) x { st4 with vars := x + 1 } with
              | .ok _ st5 => entries early c n (i + 1) st5
              | .throw e st5 => .throw e st5
              | .ub => .ub
              | .terminate => .terminate) st3) st2) st1
      else entries early c n (i + 1) st1) st

/-- `LampPost::ReadConfigurationFile` (LampPost.cpp:67-109) on a file with the given text (an unreadable file gives the
empty text). `GetCount` is converted to `int`; a negative count means no iteration. -/
def readConfigurationFile (tok : Str → Option Json) (early : Bool) (text : Str) (st : St) : Out St Unit :=
  let c := st.vars
  onData (Cmd.run (.json c tok text)) (fun _ st1 =>
    onData (ask c [] (fun b => Datagram.keyExists b (bs "plugins"))) (fun has st2 =>
      if has then
        onData (ask c [.key (bs "plugins")] (fun b => Datagram.getCount b)) (fun n st3 =>
          entries early c n.toInt.toNat 0 st3) st2
      else .ok () st2) { st1 with vars := c + 1 }) st

/-- The configuration files one after the other (LampPost.cpp:118-132). -/
def readFiles (tok : Str → Option Json) (early : Bool) : List Str → St → Out St Unit
  | [], st => .ok () st
  | text :: rest, st => match readConfigurationFile tok early text st with
    | .ok _ st1 => readFiles tok early rest st1
    | .throw e st1 => .throw e st1
    | .ub => .ub
    | .terminate => .terminate

/-- Run a call on the plugin manager (LampPost.cpp:32-35, 42). -/
def onMgr {β : Type} (m : Plugin.Manager → Out Plugin.Manager Unit) (k : St → Out St β) (st : St) : Out St β :=
  match m st.mgr with
  | .ok _ m1 => k { st with mgr := m1 }
  | .throw e m1 => .throw e { st with mgr := m1 }
  | .ub => .ub
  | .terminate => .terminate

/-- `LampPost::Setup` (LampPost.cpp:29-36). -/
def setup (env : Plugin.Env) (st : St) : Out St Unit :=
  onMgr (fun m => Plugin.loadTemplates env (Plugin.setBus st.rootBus m)) (fun st1 => .ok () st1) st

/-- `LampPost::Teardown` (LampPost.cpp:38-46): a null root bus is dereferenced in line 41. -/
def teardown (st : St) : Out St Unit :=
  match st.rootBus with
  | none => .ub
  | some b =>
    match Bus.detach st.mgr.world.nb b st.mgr.world with
    | .ok _ w => onMgr Plugin.unloadTemplates (fun st1 => .ok () { st1 with rootBus := none })
        { st with mgr := { st.mgr with world := w } }
    | .throw e w => .throw e { st with mgr := { st.mgr with world := w } }
    | .ub => .ub
    | .fuel => .ub

/-- `LampPost::Start` (LampPost.cpp:111-144). `run` is what happens during `mRootBus->Start()` (line 135): the bus
layer describes it; here it may return, throw or be undefined, and change the bus hierarchy and the events. `files` are
the texts of the configuration files. -/
def start (env : Plugin.Env) (tok : Str → Option Json) (early : Bool) (run : Nat → St → Out St Unit) (files : List Str)
    (st : St) : Out St Unit :=
  match setup env { st with runState := .running } with
  | .ok _ st1 => match readFiles tok early files st1 with
    | .ok _ st2 => match st2.rootBus with
      | none => .ub
      | some b => match run b st2 with
        | .ok _ st3 => match teardown st3 with
          | .ok _ st4 => .ok () { st4 with runState := .running }
          | r => r
        | r => r
    | r => r
  | r => r

/-- `LampPost::IsStopped` (LampPost.cpp:152-155). -/
def isStopped (st : St) : Bool := st.runState == .stopped

/-- `LampPost::LampPost` (LampPost.cpp:6-22) for a given plugin manager, with the root bus number 0. -/
def create (mgr : Plugin.Manager) : St := ⟨Cmd.init, 0, mgr, some 0, .unknown, []⟩

/-- `~LampPost` (LampPost.cpp:24-27), then the destructors of the members in the reverse order of LampPost.h:23-28, of
which only that of the plugin manager does anything. -/
def destroy (st : St) : Out St Unit :=
  onMgr Plugin.destroyManager (fun st1 => .ok () st1) { st with rootBus := none }

end LP.Host
