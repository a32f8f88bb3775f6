/-!
# The worker thread of a plugin instance (src/lamppost/plugin/PluginInstance.cpp)

One thread owns the instance and calls `Start`, `Stop` and the destructor one after the other; the worker thread runs the
plugin's `Run`. The plugin itself may clear the protected flag `mShouldRun`.
-/
namespace LP.Worker

/-- What a thread created by `Start` is doing (PluginInstance.cpp:39). -/
inductive Thread where
  | running
  | returned
  deriving DecidableEq

/-- Where the owner is: not inside a call, waiting in `join` (PluginInstance.cpp:51) in `Stop` or in the destructor. -/
inductive Owner where
  | idle
  | joining
  | destroying
  deriving DecidableEq

/-- How the instance has ended, if it has. `undefined`: the derived part of the object was destroyed while its `Run` was
executing (PluginInstance.cpp:14-18). -/
inductive End where
  | destroyed
  | terminated
  | undefined
  deriving DecidableEq

/-- `mShouldRun` and `mWorkerThread` (`none`: not joinable) (PluginInstance.h:52-57), the owner, and the end. `joined`
counts the calls of `join` that returned, `started` the threads created. -/
structure St where
  shouldRun : Bool
  thread : Option Thread
  owner : Owner
  ended : Option End
  started : Nat
  joined : Nat
  deriving DecidableEq

/-- What can happen (PluginInstance.cpp:14-18, 35-54). -/
inductive Act where
  | start
  | stop
  | join
  | destroy
  | workerReturns
  | pluginClears
  deriving DecidableEq

/-- After construction (PluginInstance.cpp:6-12). -/
def initial : St := ⟨false, none, .idle, none, 0, 0⟩

/-- The end of the destructor (PluginInstance.cpp:14-18): the members are destroyed; destroying a joinable
`std::thread` terminates the process. -/
def finish (σ : St) : St :=
  match σ.thread with
  | none => { σ with owner := .idle, ended := some .destroyed }
  | some _ => { σ with owner := .idle, ended := some .terminated }

/-- One step; `none`: not possible.
`start`: PluginInstance.cpp:35-41 (the old thread is swapped into a local variable and destroyed).
`stop`: PluginInstance.cpp:43-54 up to the wait. `join`: the wait ends, the worker having returned.
`destroy`: the derived destructor, then PluginInstance.cpp:14-18.
`workerReturns`: the worker leaves `Run`. `pluginClears`: the plugin sets `mShouldRun` to false itself. -/
def step (σ : St) (a : Act) : Option St :=
  if σ.ended.isSome then none
  else match a, σ.owner with
    | .start, .idle =>
      let σ1 := { σ with shouldRun := true, thread := some .running, started := σ.started + 1 }
      if σ.thread.isSome then some { σ1 with ended := some .terminated } else some σ1
    | .stop, .idle =>
      if σ.shouldRun then
        if σ.thread.isSome then some { σ with shouldRun := false, owner := .joining }
        else some { σ with shouldRun := false }
      else some σ
    | .destroy, .idle =>
      if σ.thread = some .running then some { σ with ended := some .undefined }
      else if σ.shouldRun then
        if σ.thread.isSome then some { σ with shouldRun := false, owner := .destroying }
        else some (finish { σ with shouldRun := false })
      else some (finish σ)
    | .join, .joining =>
      if σ.thread = some .returned then some { σ with thread := none, owner := .idle, joined := σ.joined + 1 } else none
    | .join, .destroying =>
      if σ.thread = some .returned then some (finish { σ with thread := none, joined := σ.joined + 1 }) else none
    | .workerReturns, _ =>
      if σ.thread = some .running then some { σ with thread := some .returned } else none
    | .pluginClears, _ => some { σ with shouldRun := false }
    | _, _ => none

/-- Several steps (no code of its own: an interleaving of PluginInstance.cpp:14-54). -/
def exec (σ : St) : List Act → Option St
  | [] => some σ
  | a :: as => (step σ a).bind (fun σ' => exec σ' as)

end LP.Worker
