import Verif.Model.Bus
import Verif.Model.Fs
/-!
# Plugin templates and the plugin manager (src/lamppost/plugin/PluginTemplate.cpp, PluginManager.cpp), POSIX branch

The plugin libraries are the environment: what opening a file gives, which symbols it has and what they do are
parameters. Log output is dropped.
-/
namespace LP.Plugin

/-- Outcome of a call: as `LP.Res`, with `terminate` for `std::terminate` (an exception leaving a destructor) and
without a recursion bound (no code of its own: outcomes of the functions of PluginManager.cpp:32-230). -/
inductive Out (σ α : Type) where
  | ok (a : α) (s : σ)
  | throw (e : Exn) (s : σ)
  | ub
  | terminate

/-- A `PluginInstance` made by a library (PluginInstance.h:49-105): what its `Initialize` and `Deinitialize` do
(`none`: return normally). -/
structure Inst where
  initExn : Option Exn
  deinitExn : Option Exn

/-- What the library's `CreateInstance` does (PluginManager.h:64-71): a new object, a null pointer, or an exception. -/
inductive Made where
  | object (i : Inst)
  | null
  | throws (e : Exn)

/-- Observable events. `handle` numbers are what `dlopen` returned (PluginManager.cpp:52-162,
PluginTemplate.cpp:24-65). -/
inductive Ev where
  | created (name : Str)
  | stopped (name : Str)
  | deinitialized (name : Str)
  | opened (handle : Nat)
  | closed (handle : Nat)
  deriving DecidableEq

/-- A `PluginTemplate` (PluginTemplate.h:19-40, PluginTemplateConfiguration.h:14-30): identifier,
`mInstantiateFunction` (`none`: null; it is given the instance's identifier, the other configuration members are
dropped) and `mInstances` (`none`: a null `shared_ptr`). -/
structure Template where
  ident : Str
  make : Option (Str → Made)
  instances : Dict (Option Inst)

/-- The state a template call works on: the template, the bus hierarchy and the events so far
(PluginTemplate.h:22-23). -/
structure TS where
  tmpl : Template
  world : Bus.World
  log : List Ev

/-- The identifier of the instance with a given index (PluginTemplate.cpp:19, 33). -/
def Template.name (t : Template) (index : Nat) : Str := t.ident ++ natToStr index

/-- `IndexedInstanceExists` (PluginTemplate.cpp:17-22). -/
def Template.indexedInstanceExists (t : Template) (index : Nat) : Bool := t.instances.has (t.name index)

/-- The search loop of `Instantiate` (PluginTemplate.cpp:26-31). The first argument is the number of values `index` can
still take; `none`: `index++` overflows `int`. -/
def freeIndex (taken : Nat → Bool) : Nat → Nat → Option Nat
  | 0, _ => none
  | n + 1, i => if taken i then freeIndex taken n (i + 1) else some i

/-- Number of non-negative `int` values (`int index`, PluginTemplate.cpp:26). -/
def intValues : Nat := 2147483648

/-- `PluginTemplate::Instantiate` (PluginTemplate.cpp:24-39). `early` tells whether the compiler evaluates
`mInstances[...]` on the left of line 36 before the call on its right (unspecified in C++14, the language version set in
CMakeLists.txt). A null parent bus is dereferenced in line 34. The result is the new instance and its name. -/
def instantiate (early : Bool) (parent : Option Nat) (s : TS) : Out TS (Str × Option Inst) :=
  match freeIndex s.tmpl.indexedInstanceExists intValues 0 with
  | none => .ub
  | some index =>
    let name := s.tmpl.name index
    match parent with
    | none => .ub
    | some b =>
      match Bus.createChildBus b name s.world with
      | .throw e w => .throw e { s with world := w }
      | .ub => .ub
      | .fuel => .ub
      | .ok _ w =>
        let failed : TS := if early then
            { s with world := w, tmpl := { s.tmpl with instances := s.tmpl.instances.insert name none } }
          else { s with world := w }
        let done (i : Option Inst) : TS :=
          { s with world := w, tmpl := { s.tmpl with instances := s.tmpl.instances.insert name i } }
        match s.tmpl.make with
        | none => .throw .badFunctionCall failed
        | some f => match f name with
          | .throws e => .throw e failed
          | .null => .ok (name, none) (done none)
          | .object i => .ok (name, some i)
              { done (some i) with log := s.log ++ [.created name] }

/-- The loop of `PluginTemplate::Stop` (PluginTemplate.cpp:41-47); `PluginInstance::Stop` itself is
`Verif.Model.Worker`. -/
def stopAll : Dict (Option Inst) → List Ev → Option (List Ev)
  | [], log => some log
  | (_, none) :: _, _ => none
  | (name, some _) :: d, log => stopAll d (log ++ [.stopped name])

/-- How the loop of `PluginTemplate::Deinitialize` ends (PluginTemplate.cpp:51-54): the events, and the exception that
ended it, if any. -/
def deinitAll : Dict (Option Inst) → List Ev → Option (List Ev × Option Exn)
  | [], log => some (log, none)
  | (_, none) :: _, _ => none
  | (name, some i) :: d, log => match i.deinitExn with
    | some e => some (log ++ [.deinitialized name], some e)
    | none => deinitAll d (log ++ [.deinitialized name])

/-- `PluginTemplate::Unload` (PluginTemplate.cpp:59-65) with `Stop` (41-47) and `Deinitialize` (49-57). -/
def unload (t : Template) (log : List Ev) : Out (Template × List Ev) Unit :=
  let t1 := { t with make := none }
  match stopAll t1.instances log with
  | none => .ub
  | some log1 => match deinitAll t1.instances log1 with
    | none => .ub
    | some (log2, some e) => .throw e (t1, log2)
    | some (log2, none) => .ok () ({ t1 with instances := [] }, log2)

/-- `~PluginTemplate` (PluginTemplate.cpp:12-15): an exception leaving a destructor terminates the process. -/
def destroyTemplate (t : Template) (log : List Ev) : Out (List Ev) Unit :=
  match unload t log with
  | .ok _ (_, log1) => .ok () log1
  | .throw _ _ => .terminate
  | .ub => .ub
  | .terminate => .terminate

/-- A plugin library as `dlsym` shows it (PluginManager.cpp:90, 96, 108): `CreateInfo` (`none`: symbol missing;
`some none`: it returns a null pointer; otherwise the identifier) and `CreateInstance`. -/
structure Lib where
  createInfo : Option (Option Str)
  createInstance : Option (Str → Made)

/-- The environment of the manager: file system and `dlopen` (`none`: null; opening the same library again gives the
same handle and counts the reference) (PluginManager.cpp:43-67, 164-180). -/
structure Env where
  fs : Fs.World
  dlopen : Str → Option (Nat × Lib)

/-- A `PluginManager` (PluginManager.h:38-79) with the bus hierarchy and the events so far: search paths and default
bus of `mConfiguration`, `mTemplates` (library handle and template). -/
structure Manager where
  searchPaths : List Str
  bus : Option Nat
  templates : Dict (Nat × Template)
  world : Bus.World
  log : List Ev

/-- `sTemplateFileExtension` (PluginManager.cpp:10). -/
def templateFileExtension : Str := bs "so"
/-- `sTemplateFilePrefix` (PluginManager.cpp:11). -/
def templateFilePrefix : Str := bs "libplugin_"

/-- `PluginManager::PluginManager` (PluginManager.cpp:14-30): the search paths it adds to those it is given; `none` when
`GetPathOfRunningExecutable` is undefined. -/
def initialPaths (fs : Fs.World) (given : List Str) : Option (List Str) :=
  match Fs.getPathOfRunningExecutable fs with
  | none => none
  | some exe =>
    let executableDirectory := Fs.getBaseDirectory exe
    let cwd := Fs.getWorkingDirectory fs
    let p1 := given ++ [executableDirectory]
    let p2 := if cwd != executableDirectory then p1 ++ [cwd] else p1
    some (p2 ++ [Fs.combinePaths cwd (bs "lib")])

/-- The test of `LoadTemplate` (PluginManager.cpp:73-75). -/
def candidate (fs : Fs.World) (path : Str) : Bool :=
  Fs.pathExists fs path && (Fs.getFileExtension path == templateFileExtension) &&
    ((Fs.getFilename path).substr0 templateFilePrefix.length == templateFilePrefix)

/-- `mTemplates[id] = description` (PluginManager.cpp:128): a template already stored under the identifier is
destroyed; its library handle is overwritten without being closed. -/
def storeTemplate (id : Str) (handle : Nat) (t : Template) (m : Manager) : Out Manager Bool :=
  match m.templates.find id with
  | none => .ok true { m with templates := m.templates.insert id (handle, t) }
  | some (_, old) => match destroyTemplate old m.log with
    | .ok _ log1 => .ok true { m with templates := m.templates.insert id (handle, t), log := log1 }
    | .throw _ _ => .terminate
    | .ub => .ub
    | .terminate => .terminate

/-- What `LoadTemplate` does with what opening the file gave (PluginManager.cpp:79-158). `info->mIdentifier` dereferences
what `CreateInfo` returned. -/
def useLibrary (opened : Option (Nat × Lib)) (m : Manager) : Out Manager Bool :=
  match opened with
  | none => .ok false m
  | some (handle, lib) =>
    let m1 := { m with log := m.log ++ [.opened handle] }
    let closing := { m1 with log := m1.log ++ [.closed handle] }
    match lib.createInfo with
    | none => .ok false closing
    | some none => .ub
    | some (some id) =>
      if id.isEmpty then .ok false closing
      else match lib.createInstance with
        | none => .ok false closing
        | some f => storeTemplate id handle ⟨id, some f, []⟩ m1

/-- `LoadTemplate` (PluginManager.cpp:69-162) with `OpenPluginLibrary` (PluginManager.cpp:43-50). -/
def loadTemplate (env : Env) (path : Str) (m : Manager) : Out Manager Bool :=
  if candidate env.fs path then useLibrary (env.dlopen (Fs.cstr path)) m else .ok false m

/-- The calls of `LoadTemplate` one after the other (PluginManager.cpp:174-178); its result is ignored. -/
def loadAll (env : Env) : List Str → Manager → Out Manager Unit
  | [], m => .ok () m
  | path :: rest, m => match loadTemplate env path m with
    | .ok _ m1 => loadAll env rest m1
    | .throw e m1 => .throw e m1
    | .ub => .ub
    | .terminate => .terminate

/-- The files `LoadTemplates` looks at (PluginManager.cpp:168-178), in order. Simplification: the directories are all
read before the first library is opened; the file system does not change meanwhile. -/
def templateFiles (env : Env) (paths : List Str) : List Str :=
  paths.flatMap (fun p => (Fs.getDirectoryContents env.fs p Fs.typeFile).map (Fs.combinePaths p))

/-- `LoadTemplates` (PluginManager.cpp:164-180). -/
def loadTemplates (env : Env) (m : Manager) : Out Manager Unit :=
  loadAll env (templateFiles env m.searchPaths) m

/-- The loop of `UnloadTemplates` (PluginManager.cpp:188-194). The template is shared between the loop's copy and the
map, so what `Unload` did to it stays when an exception ends the loop; `front` are the entries already done. -/
def unloadAll (front : Dict (Nat × Template)) : Dict (Nat × Template) → List Ev → Out (Dict (Nat × Template) × List Ev) Unit
  | [], log => .ok () (front, log)
  | (id, h, t) :: rest, log => match unload t log with
    | .ok _ (t1, log1) => unloadAll (front ++ [(id, h, t1)]) rest (log1 ++ [.closed h])
    | .throw e (t1, log1) => .throw e (front ++ (id, h, t1) :: rest, log1)
    | .ub => .ub
    | .terminate => .terminate

/-- Destroying the templates when the map is cleared (PluginManager.cpp:196): the destructors run `Unload` again. -/
def destroyAll : Dict (Nat × Template) → List Ev → Out (List Ev) Unit
  | [], log => .ok () log
  | (_, _, t) :: rest, log => match destroyTemplate t log with
    | .ok _ log1 => destroyAll rest log1
    | .throw e log1 => .throw e log1
    | .ub => .ub
    | .terminate => .terminate

/-- `UnloadTemplates` (PluginManager.cpp:182-198). -/
def unloadTemplates (m : Manager) : Out Manager Unit :=
  if m.templates.isEmpty then .ok () m
  else match unloadAll [] m.templates m.log with
    | .ok _ (ts, log1) => match destroyAll ts log1 with
      | .ok _ log2 => .ok () { m with templates := [], log := log2 }
      | .throw e log2 => .throw e { m with templates := ts, log := log2 }
      | .ub => .ub
      | .terminate => .terminate
    | .throw e (ts, log1) => .throw e { m with templates := ts, log := log1 }
    | .ub => .ub
    | .terminate => .terminate

/-- `~PluginManager` (PluginManager.cpp:32-36): an exception leaving a destructor terminates the process. The map is
destroyed afterwards; it is empty then. -/
def destroyManager (m : Manager) : Out Manager Unit :=
  match unloadTemplates m with
  | .ok _ m1 => .ok () { m1 with bus := none }
  | .throw _ _ => .terminate
  | .ub => .ub
  | .terminate => .terminate

/-- `SetBus` (PluginManager.cpp:200-203). -/
def setBus (b : Option Nat) (m : Manager) : Manager := { m with bus := b }

/-- `InstantiateTemplate` (PluginManager.cpp:205-230): the instance and its name; `none` for an unknown identifier or a
null pointer from the library. -/
def instantiateTemplate (early : Bool) (id : Str) (configBus : Option Nat) (m : Manager) :
    Out Manager (Option (Str × Inst)) :=
  let parent := match configBus with
    | none => m.bus
    | some b => some b
  match m.templates.find id with
  | none => .ok none m
  | some (h, t) =>
    let put (s : TS) : Manager :=
      { m with templates := m.templates.insert id (h, s.tmpl), world := s.world, log := s.log }
    match instantiate early parent ⟨t, m.world, m.log⟩ with
    | .ok (name, i) s => .ok (i.map (fun i => (name, i))) (put s)
    | .throw e s => .throw e (put s)
    | .ub => .ub
    | .terminate => .terminate

end LP.Plugin
