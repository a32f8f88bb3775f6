import Verif.Model.Str
/-!
# Logging (src/lamppost/log/Log.cpp)
-/
namespace LP.Log

/-- A call of `Info`, `Warning` or `Error` on a `Log` with the given prefix (Log.cpp:30-48; the colour is not used). -/
structure Call where
  pre : Str
  message : Str
  level : Int
  deriving DecidableEq

/-- The loop that builds the indentation (Log.cpp:21-24): `n` rounds. -/
def indentLoop : Nat → Str → Str
  | 0, acc => acc
  | n + 1, acc => indentLoop n (acc ++ bs "  ")

/-- The line `Write` passes on (Log.cpp:17-27); a negative level makes no round of the loop. -/
def line (c : Call) : Str := bs "[" ++ c.pre ++ bs "] " ++ indentLoop c.level.toNat [] ++ c.message

/-- What `std::cout << line << std::endl` writes (Log.cpp:14). -/
def written (c : Call) : Str := line c ++ [10]

/-- Where a thread is: outside `WriteSynchronized`, or holding the mutex with these bytes still to be written
(Log.cpp:10-15). -/
inductive Pc where
  | outside
  | writing (rest : Str)
  deriving DecidableEq

/-- A thread and the calls it has not finished; while it is writing, the first of them is the current one
(Log.cpp:35-48). -/
structure Th where
  todo : List Call
  pc : Pc

/-- The state: the standard output so far, the holder of `sSynchronizationMutex`, the threads (Log.h:22, Log.cpp:14). -/
structure St where
  out : Str
  owner : Option Nat
  ths : List Th

/-- One step of thread `i` (Log.cpp:10-15): take the mutex if it is free, write one byte, or release the mutex.
Simplification: nobody else writes to `std::cout`. -/
def step (σ : St) (i : Nat) : Option St :=
  match σ.ths[i]? with
  | none => none
  | some t =>
    match t.pc with
    | .outside =>
      match t.todo, σ.owner with
      | c :: _, none => some { σ with owner := some i, ths := σ.ths.set i { t with pc := .writing (written c) } }
      | _, _ => none
    | .writing (b :: rest) => some { σ with out := σ.out ++ [b], ths := σ.ths.set i { t with pc := .writing rest } }
    | .writing [] => some { σ with owner := none, ths := σ.ths.set i ⟨t.todo.tail, .outside⟩ }

/-- The threads before they have logged anything (no code: before any of Log.cpp:35-48). -/
def start (programs : List (List Call)) : St := ⟨[], none, programs.map (fun p => ⟨p, .outside⟩)⟩

/-- A schedule: which thread goes on (no code of its own: an interleaving of Log.cpp:10-15). -/
def exec (σ : St) : List Nat → Option St
  | [] => some σ
  | i :: is => (step σ i).bind (fun σ' => exec σ' is)

end LP.Log
