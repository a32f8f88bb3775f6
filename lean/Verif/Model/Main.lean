import Verif.Model.LampPost
/-!
# The program (src/main.cpp) with the constructor of the host (LampPost.cpp:6-22)

Signals and the bus thread are `Verif.Model.Process`; here is what the program does from its arguments to its end.
Simplification: log and console output are dropped.
-/
namespace LP.Main
open Plugin (Out Ev)

/-- A `SettingsManager` (SettingsManager.h:13-26). -/
structure Settings where
  paths : List Str

/-- `SettingsManager::ReadConfigurationFile` (SettingsManager.cpp:18-21): nothing yet. -/
def Settings.readConfigurationFile (s : Settings) (_path : Str) : Settings := s

/-- `LampPost::LampPost` (LampPost.cpp:6-22) with the constructors of the plugin manager (PluginManager.cpp:14-30) and the
root bus (Bus.cpp:8-27). `none`: undefined (`GetPathOfRunningExecutable`). Simplification: the bus is created first; the
members do not depend on each other. -/
def construct (fs : Fs.World) (given files : List Str) : Option (Except Exn Host.St) :=
  match Plugin.initialPaths fs given with
  | none => none
  | some ps => match Bus.newRoot (bs "root") with
    | .error e => some (.error e)
    | .ok w =>
      let settings := files.foldl Settings.readConfigurationFile ⟨[]⟩
      some (.ok (Host.create ⟨ps ++ settings.paths, none, [], w, []⟩))

/-- How the program ends (main.cpp:38-51). -/
inductive End where
  /-- `main` returns this status; the events up to the end of the static destructors -/
  | exit (status : Nat) (events : List Ev)
  /-- `std::terminate`; for an exception that left `main` the exception and the events (no destructor of the global object
  runs then) -/
  | aborted (why : Option (Exn × List Ev))
  | ub

/-- `configuration.mConfigurationFiles` (main.cpp:27-34); `args` is `argv[1]` and what follows. -/
def files : List Str → List Str
  | [] => []
  | a :: _ => [a]

/-- `main` (main.cpp:21-52), then the destruction of the global `lamppost`. `contents` is the text of a file, if it can be
read (LampPost.cpp:69-71). The handler in main.cpp:42-47 throws on what it catches, so every exception leaves `main`. -/
def main (env : Plugin.Env) (tok : Str → Option Json) (early : Bool) (run : Nat → Host.St → Out Host.St Unit)
    (contents : Str → Option Str) (args : List Str) : End :=
  match construct env.fs [] (files args) with
  | none => .ub
  | some (.error e) => .aborted (some (e, []))
  | some (.ok st) =>
    match Host.start env tok early run ((files args).map (fun f => (contents f).getD [])) st with
    | .ok _ st1 => match Host.destroy st1 with
      | .ok _ st2 => .exit 0 st2.mgr.log
      | .throw _ _ => .aborted none
      | .ub => .ub
      | .terminate => .aborted none
    | .throw e st1 => .aborted (some (e, st1.mgr.log))
    | .ub => .ub
    | .terminate => .aborted none

end LP.Main
