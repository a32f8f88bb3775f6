import Verif.Model.Prog
/-!
# Reading calls of the Datagram API, and whole programs
-/
namespace LP
open Heap

/-- A reading call on one Datagram (Datagram.h:30-36, 69-72, 89-107; Datagram.cpp:31-59). -/
inductive Query where
  | getType                                              -- GetType()
  | isEmpty                                              -- IsEmpty()
  | keyExists (k : Str)                                  -- KeyExists(k)
  | getCount                                             -- GetCount()
  | getVal (ty : VTy)                                    -- Get<T>()
  | getPath (ty : VTy) (path : Str) (dflt : Val)         -- Get<T>(path, default)
  | print                                                -- stream << d
  deriving DecidableEq

/-- What a reading call returns (Datagram.h:30-107). -/
inductive Ans where
  | ty (t : Ty)
  | bool (b : Bool)
  | count (n : BitVec 32)
  | val (v : Val)
  | text (s : Str)
  deriving DecidableEq

/-- The result of a reading call on the Datagram with object `a` (lines as in `Query`). Printing gets the recursion
bound `next + 1`, which no acyclic graph exhausts (Datagram.h:30-107). -/
def Query.run (pd : Dbl → Str) (po : Nat → Nat → Str) (q : Query) (a : Nat) : M Heap Ans :=
  match q with
  | .getType => do let t ← Datagram.getType a; pure (.ty t)
  | .isEmpty => do let b ← Datagram.isEmpty a; pure (.bool b)
  | .keyExists k => do let b ← Datagram.keyExists a k; pure (.bool b)
  | .getCount => do let n ← Datagram.getCount a; pure (.count n)
  | .getVal ty => do let v ← Datagram.getVal a ty; pure (.val v)
  | .getPath ty path dflt => do let v ← Datagram.pathGet a ty path dflt; pure (.val v)
  | .print => do
    let h ← M.get
    let s ← Heap.print pd po (h.next + 1) a
    pure (.text s)

/-- Run statements one after the other, noting for each the exception it threw, if any; the client catches exceptions
and goes on. `none` means undefined behaviour or non-termination. (Sequencing of the calls in `Stmt`; Datagram.h:12-123.) -/
def Stmt.runAll : List Stmt → DState → Option (DState × List (Option Exn))
  | [], s => some (s, [])
  | c :: cs, s =>
    match Stmt.run c s with
    | .ok _ s' => (runAll cs s').map fun r => (r.1, none :: r.2)
    | .throw e s' => (runAll cs s').map fun r => (r.1, some e :: r.2)
    | .ub => none
    | .fuel => none

/-- What a client sees when it makes the reading call `q` on variable `y` in state `s`: `none` if the variable is not in
scope (or the call is undefined), otherwise the answer or the exception (lines as in `Query`) (Datagram.h:30-107). -/
def observe (pd : Dbl → Str) (po : Nat → Nat → Str) (q : Query) (s : DState) (y : Nat) : Option (Except Exn Ans) :=
  match s.env y with
  | none => none
  | some a => match q.run pd po a s.heap with
    | .ok r _ => some (.ok r)
    | .throw e _ => some (.error e)
    | .ub => none
    | .fuel => none

/-- What a client sees when it makes the reading call `q` on `y[p1][p2]...` (Datagram.h:38-53, then as in `Query`). -/
def observeAt (pd : Dbl → Str) (po : Nat → Nat → Str) (q : Query) (p : List Sel) (s : DState) (y : Nat) : Option (Except Exn Ans) :=
  match s.env y with
  | none => none
  | some a => match (follow p a >>= fun b => q.run pd po b) s.heap with
    | .ok r _ => some (.ok r)
    | .throw e _ => some (.error e)
    | .ub => none
    | .fuel => none

/-- What a client sees when it evaluates `y == z` (Datagram.cpp:36-39). -/
def observeEq (s : DState) (y z : Nat) : Option Bool :=
  match s.env y, s.env z with
  | some a, some b => match Datagram.eq a b s.heap with
    | .ok r _ => some r
    | _ => none
  | _, _ => none

/-- What a client sees when it serialises the Datagram in variable `x` (Datagram.h:109-112) and reads the table back. -/
def observeWire (s : DState) (x : Nat) : Option FB :=
  match s.env x with
  | some a => match Datagram.serialize a s.heap with
    | .ok f _ => some f
    | _ => none
  | none => none

end LP
