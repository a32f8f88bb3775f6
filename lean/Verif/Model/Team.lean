import Verif.Model.BusConc
/-!
# Several threads in `Start` of the root bus

`Model/BusConc` has one bus thread. Nothing in `Bus::Start` keeps a second thread from calling it while a first one is
inside, or another one from calling it between a `Stop` and the return of the first. Here a fixed, arbitrary number of
threads call `Start` of the root as often as they like, while any number of further threads use the rest of the API. The
only thing that keeps the threads apart is `mNotifierMutex`, locked in the first line of `Run` (Bus.cpp:139), given up
while waiting on the condition variable (lines 143-149) and on leaving `Run`, be it by an exception.

Simplifications: as in `Model/BusConc`. The locks `Distribute` takes are not waited for by the other threads in `Run`,
since these never get that far (`C131_one_distributes`); all other users of these locks do wait. `wait_for` evaluates the
predicate once more after a timeout and ignores its value; this evaluation is left out.
-/
namespace LP.Team
open LP.Bus

/-- Where a thread is (Bus.cpp:127-169). -/
inductive Pos where
  /-- not inside `Start` -/
  | out
  /-- the flag is set (Bus.cpp:129), about to lock `mNotifierMutex` (line 139) -/
  | want
  /-- in `Run` behind line 139; `run .asleep` is the thread blocked in `wait_for`, which does not hold the mutex -/
  | run (p : Phase)
  /-- woken up inside `wait_for`, by the timeout or else, and about to lock the mutex again (line 143) -/
  | back (timeout : Bool)

/-- The place of the thread in `Run` as far as the locks of `Distribute` are concerned (Bus.cpp:137-204). -/
def Pos.phase : Pos → Phase
  | .run p => p
  | _ => .off

/-- The hierarchy, who holds `mNotifierMutex` (Bus.h:46, Bus.cpp:139) and where the threads are. The field `phase` of
`base` is not used. -/
structure St where
  base : Bus.St
  owner : Option Nat
  team : List Pos

/-- What can happen (Bus.cpp:127-169 and Bus.h:92-186). -/
inductive Ev where
  /-- thread `i` calls `Start` of the root (Bus.cpp:127-135) -/
  | start (i : Nat)
  /-- thread `i` gets `mNotifierMutex` (Bus.cpp:139, or inside `wait_for`, line 143) -/
  | lock (i : Nat)
  /-- thread `i` makes a step in `Run` (Bus.cpp:137-169) -/
  | go (i : Nat) (c : Choice)
  /-- thread `i` wakes up in `wait_for` (line 143), by the timeout or spuriously -/
  | wake (i : Nat) (timeout : Bool)
  /-- one of the completed `Publish` calls calls `notify_one` (line 25): the thread that is woken up, if any is blocked -/
  | notify (i : Option Nat)
  /-- any other call of the API, by any thread, also by callbacks -/
  | api (a : Bus.Act)

/-- The result of an event: it happens, it cannot happen in this state, or it is undefined behaviour (no code of its
own: outcomes of Bus.cpp:127-169). -/
inductive Res where
  | to (σ : St)
  | cannot
  | undefined

/-- Thread `i` is at another place (auxiliary to Bus.cpp:127-169). -/
def St.move (σ : St) (i : Nat) (p : Pos) : St := { σ with team := σ.team.set i p }

/-- The thread is blocked in `wait_for` (Bus.cpp:143). -/
def Pos.asleep : Pos → Bool
  | .run .asleep => true
  | _ => false

/-- The state after thread `i` has come to phase `τ.phase` of `Run`: leaving `Run` and blocking in `wait_for` unlock the
mutex (Bus.cpp:139, 143, 169). -/
def arrive (σ : St) (i : Nat) (τ : Bus.St) : St :=
  match τ.phase with
  | .off => ⟨{ τ with phase := .off }, none, σ.team.set i .out⟩
  | .asleep => ⟨{ τ with phase := .off }, none, σ.team.set i (.run .asleep)⟩
  | p => ⟨{ τ with phase := .off }, σ.owner, σ.team.set i (.run p)⟩

/-- The events that are not calls of threads in `Run` and not notifications (Bus.cpp:18-125, 171-174, 206-216). -/
def free : Bus.Act → Bool
  | .run _ => false
  | .start => false
  | .notify => false
  | _ => true

/-- One event (Bus.cpp:127-169). -/
def step (σ : St) : Ev → Res
  | .start i => match σ.team[i]? with
    | some .out => .to ({ σ with base := { σ.base with w := setRunning 0 σ.base.w } }.move i .want)
    -- `Start` called in a callback: the thread locks a `std::mutex` it holds already
    | some (.run (.visit _ _ true _)) => .undefined
    | _ => .cannot
  | .lock i => match σ.owner, σ.team[i]? with
    | none, some .want => .to ({ σ with owner := some i }.move i (.run .top))
    | none, some (.back false) => .to ({ σ with owner := some i }.move i (.run .pred))
    | none, some (.back true) => .to ({ σ with owner := some i }.move i (.run .woken))
    | _, _ => .cannot
  | .go i c => match σ.team[i]? with
    | some (.run .asleep) => .cannot
    | some (.run p) => match rstep c { σ.base with phase := p } with
      | some τ => .to (arrive σ i τ)
      | none => .cannot
    | _ => .cannot
  | .wake i t => match σ.team[i]? with
    | some (.run .asleep) => .to (σ.move i (.back t))
    | _ => .cannot
  | .notify k =>
    if 0 < σ.base.toNotify then
      match k with
      | none =>
        if σ.team.any Pos.asleep then .cannot
        else .to { σ with base := { σ.base with toNotify := σ.base.toNotify - 1 } }
      | some i => match σ.team[i]? with
        | some (.run .asleep) =>
          .to ({ σ with base := { σ.base with toNotify := σ.base.toNotify - 1 } }.move i (.back false))
        | _ => .cannot
    else .cannot
  | .api a =>
    if free a && σ.team.all (fun p => (Bus.step { σ.base with phase := p.phase } a).isSome) then
      match Bus.step { σ.base with phase := .off } a with
      | some τ => .to { σ with base := τ }
      | none => .cannot
    else .cannot

/-- A new root bus (Bus.cpp:8-27) and `n` threads none of which has called `Start`. -/
def initial (name : Str) (n : Nat) : Option St :=
  (Bus.initial name).map (fun β => ⟨β, none, List.replicate n .out⟩)

/-- A sequence of events (Bus.cpp:127-169). -/
def exec (σ : St) : List Ev → Res
  | [] => .to σ
  | e :: es => match step σ e with
    | .to σ' => exec σ' es
    | r => r

end LP.Team
