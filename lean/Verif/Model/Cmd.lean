import Verif.Model.Wire
import Verif.Model.Json
/-!
# Programs that use the Datagram API

A client program holds any number of `Datagram` variables. Each command is one API call. Commands that name a variable
that holds no Datagram do nothing (they do not correspond to any C++ statement).
-/
namespace LP

/-- A client program's state: all RawDatagram objects and the Datagram variables in scope (RawDatagram.h:37-44,
Datagram.h:15). -/
structure DState where
  heap : Heap
  env : Nat → Option Nat

/-- One statement of a client program using only the Datagram API (Datagram.h, Datagram.cpp). -/
inductive Cmd where
  | make (x : Nat) (t : Ty)                   -- Datagram x(type)            (Datagram.cpp:17-20)
  | makeVal (x : Nat) (v : Val)               -- Datagram x(value)           (Datagram.h:22-26)
  | copyCtor (x y : Nat)                      -- Datagram x(y)               (Datagram.cpp:8-15)
  | assign (x y : Nat)                        -- x = y                       (Datagram.h:82-87)
  | assignVal (x : Nat) (v : Val)             -- x = value                   (Datagram.h:74-80)
  | indexKey (x y : Nat) (k : Str)            -- Datagram x = y[k]           (Datagram.h:43-53)
  | indexIdx (x y : Nat) (i : BitVec 32)      -- Datagram x = y[i]           (Datagram.h:38-41)
  | addVal (x : Nat) (v : Val)                -- x.Add(make_shared<RawDatagram>(value))
  | addNew (x : Nat) (t : Ty)                 -- x.Add(make_shared<RawDatagram>(type))
  | removeKey (x : Nat) (k : Str)             -- x.Remove(k)
  | removeIdx (x : Nat) (i : BitVec 32)       -- x.Remove(i)
  | clear (x : Nat)                           -- x.Clear()
  | receive (x : Nat) (f : FB)                -- Datagram x = Datagram::DeserializeFromStructure(f)  (Datagram.h:114-117)
  | json (x : Nat) (tokener : Str → Option Json) (text : Str)  -- Datagram x = Datagram::DeserializeFromJson(text)  (Datagram.h:119-122)
  | drop (x : Nat)                            -- end of scope of x

namespace Cmd
open Heap

/-- Run a computation on the heap part and bind its result to a variable (the constructors, Datagram.h:18-26). -/
def bindVar (x : Nat) (m : M Heap Nat) : M DState Unit := fun s =>
  match m s.heap with
  | .ok a h => .ok () ⟨h, fun y => if y = x then some a else s.env y⟩
  | .throw e h => .throw e ⟨h, s.env⟩
  | .ub => .ub
  | .fuel => .fuel

/-- Run a computation on the heap part only (Datagram.h:36-122 by `mRawDatagram`, Datagram.h:15). -/
def onHeap (m : M Heap Unit) : M DState Unit := fun s =>
  match m s.heap with
  | .ok _ h => .ok () ⟨h, s.env⟩
  | .throw e h => .throw e ⟨h, s.env⟩
  | .ub => .ub
  | .fuel => .fuel

/-- Use a variable, doing nothing if it is not in scope (Datagram.h:15; no code for a variable that does not exist). -/
def withVar (x : Nat) (f : Nat → M DState Unit) : M DState Unit := fun s =>
  match s.env x with
  | some a => f a s
  | none => .ok () s

/-- The effect of one command (see the constructors of `Cmd` for the source lines) (Datagram.h:18-122). -/
def run : Cmd → M DState Unit
  | make x t => bindVar x (Datagram.make (Node.ofType t))
  | makeVal x v => bindVar x (Datagram.make (Node.ofVal v))
  | copyCtor x y => withVar y fun a => bindVar x (Datagram.copyCtor a)
  | assign x y => withVar x fun a => withVar y fun b => onHeap (Datagram.assign a b)
  | assignVal x v => withVar x fun a => onHeap (Datagram.assignVal a v)
  | indexKey x y k => withVar y fun a => bindVar x (Datagram.indexKey a k)
  | indexIdx x y i => withVar y fun a => bindVar x (Datagram.indexIdx a i)
  | addVal x v => withVar x fun a => onHeap (Datagram.addNew a (Node.ofVal v))
  | addNew x t => withVar x fun a => onHeap (Datagram.addNew a (Node.ofType t))
  | removeKey x k => withVar x fun a => onHeap (Datagram.removeKey a k)
  | removeIdx x i => withVar x fun a => onHeap (Datagram.removeIdx a i)
  | clear x => withVar x fun a => onHeap (Datagram.clear a)
  | receive x f => bindVar x (Datagram.deserialize f)
  | json x tok text => bindVar x (Datagram.deserializeJson tok text)
  | drop x => M.modify fun s => { s with env := fun y => if y = x then none else s.env y }

/-- The program start: nothing allocated, no variables (no code: before any of Datagram.h:18-26). -/
def init : DState := ⟨Heap.init, fun _ => none⟩

/-- Run commands one after the other. A thrown exception ends the statement but not the program (the client catches
it), so the program continues in the state left behind. `none` means undefined behaviour or non-termination (no code
of its own: a client of Datagram.h:12-123). -/
def runAll : List Cmd → DState → Option DState
  | [], s => some s
  | c :: cs, s =>
    match run c s with
    | .ok _ s' => runAll cs s'
    | .throw _ s' => runAll cs s'
    | .ub => none
    | .fuel => none

end Cmd
end LP
