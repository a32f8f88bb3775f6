import Verif.Model.Plugin
import Verif.Model.FsWin
/-!
# Finding and loading plugin templates (src/lamppost/plugin/PluginManager.cpp), Windows branch

What differs from `Verif.Model.Plugin`: the file name, the symbol names and the file system helpers.
-/
namespace LP.PluginWin
open Plugin (Out Manager Made)

/-- A plugin library as `GetProcAddress` shows it (PluginManager.h:54-62): what is exported under a name, used as
`CreateInfo` (`none`: no such export; `some none`: it returns a null pointer) or as `CreateInstance`. Simplification:
an exported function has the type it is used with. -/
structure Lib where
  info : Str → Option (Option Str)
  create : Str → Option (Str → Made)

/-- The environment of the manager: file system, `LoadLibrary` (`none`: null) and `sizeof(PluginConfiguration)`
(PluginManager.cpp:43-67, 164-180). -/
structure Env where
  fs : FsWin.World
  load : Str → Option (Nat × Lib)
  size : Nat

/-- `sTemplateFileExtension` (PluginManager.cpp:7). -/
def templateFileExtension : Str := bs "dll"
/-- `sTemplateFilePrefix` (PluginManager.cpp:8). -/
def templateFilePrefix : Str := bs "plugin_"

/-- `PluginManager::PluginManager` (PluginManager.cpp:14-30): the search paths it adds to those it is given; `none` when
`GetWorkingDirectory` is undefined. -/
def initialPaths (fs : FsWin.World) (given : List Str) : Option (List Str) :=
  let executableDirectory := FsWin.getBaseDirectory (FsWin.getPathOfRunningExecutable fs)
  match FsWin.getWorkingDirectory fs with
  | none => none
  | some cwd =>
    let p1 := given ++ [executableDirectory]
    let p2 := if cwd != executableDirectory then p1 ++ [cwd] else p1
    some (p2 ++ [FsWin.combinePaths cwd (bs "lib")])

/-- The test of `LoadTemplate` (PluginManager.cpp:73-75). -/
def candidate (fs : FsWin.World) (path : Str) : Bool :=
  FsWin.pathExists fs path && (FsWin.getFileExtension path == templateFileExtension) &&
    ((FsWin.getFilename path).substr0 templateFilePrefix.length == templateFilePrefix)

/-- `createInfoFunctionName` (PluginManager.cpp:85). -/
def createInfoName : Str := bs "_CreateInfo@0"

/-- `createInstanceFunctionName` (PluginManager.cpp:103). -/
def createInstanceName (size : Nat) : Str := bs "_CreateInstance@" ++ natToStr size

/-- The two functions looked up in a library (PluginManager.cpp:84-90, 102-108). -/
def functions (size : Nat) (lib : Lib) : Plugin.Lib := ⟨lib.info createInfoName, lib.create (createInstanceName size)⟩

/-- `LoadTemplate` (PluginManager.cpp:69-162) with `OpenPluginLibrary` (PluginManager.cpp:43-50). -/
def loadTemplate (env : Env) (path : Str) (m : Manager) : Out Manager Bool :=
  if candidate env.fs path then
    Plugin.useLibrary ((env.load (Fs.cstr path)).map (fun x => (x.1, functions env.size x.2))) m
  else .ok false m

/-- The inner loop of `LoadTemplates` (PluginManager.cpp:174-178). -/
def loadAll (env : Env) : List Str → Manager → Out Manager Unit
  | [], m => .ok () m
  | path :: rest, m => match loadTemplate env path m with
    | .ok _ m1 => loadAll env rest m1
    | .throw e m1 => .throw e m1
    | .ub => .ub
    | .terminate => .terminate

/-- The outer loop of `LoadTemplates` (PluginManager.cpp:168-179). -/
def loadFrom (env : Env) : List Str → Manager → Out Manager Unit
  | [], m => .ok () m
  | p :: ps, m => match FsWin.getDirectoryContents env.fs p Fs.typeFile with
    | none => .ub
    | some names => match loadAll env (names.map (FsWin.combinePaths p)) m with
      | .ok _ m1 => loadFrom env ps m1
      | .throw e m1 => .throw e m1
      | .ub => .ub
      | .terminate => .terminate

/-- `LoadTemplates` (PluginManager.cpp:164-180). -/
def loadTemplates (env : Env) (m : Manager) : Out Manager Unit := loadFrom env m.searchPaths m

end LP.PluginWin
