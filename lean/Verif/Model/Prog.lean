import Verif.Model.Cmd
/-!
# Statements of client programs, with chained indexing

`d["a"][3]["b"] = 5;` and the like: a chain of `operator[]` calls yields a temporary handle on which one more API call
is made. The handle does not outlive the statement.
-/
namespace LP
open Heap

/-- One `operator[]` (Datagram.h:38-53). -/
inductive Sel where
  | key (k : Str)
  | idx (i : BitVec 32)
  deriving DecidableEq

/-- A chain of `operator[]` calls `d[s1][s2]...` (Datagram.h:38-53), left to right. -/
def follow : List Sel → Nat → M Heap Nat
  | [], a => pure a
  | .key k :: p, a => do
    let b ← Datagram.indexKey a k
    follow p b
  | .idx i :: p, a => do
    let b ← Datagram.indexIdx a i
    follow p b

/-- A statement of a client program that keeps no handles to parts across statements (Datagram.h:18-87). -/
inductive Stmt where
  | decl (x : Nat) (t : Ty)                          -- Datagram x(type);
  | declVal (x : Nat) (v : Val)                      -- Datagram x(value);
  | declCopy (x y : Nat)                             -- Datagram x(y);
  | touch (x : Nat) (p : List Sel)                   -- x[p];
  | setVal (x : Nat) (p : List Sel) (v : Val)        -- x[p] = value;
  | addVal (x : Nat) (p : List Sel) (v : Val)        -- x[p].Add(make_shared<RawDatagram>(value));
  | addNew (x : Nat) (p : List Sel) (t : Ty)         -- x[p].Add(make_shared<RawDatagram>(type));
  | removeKey (x : Nat) (p : List Sel) (k : Str)     -- x[p].Remove(k);
  | removeIdx (x : Nat) (p : List Sel) (i : BitVec 32) -- x[p].Remove(i);
  | clear (x : Nat) (p : List Sel)                   -- x[p].Clear();
  | assignInto (x : Nat) (p : List Sel) (y : Nat)    -- x[p] = y;
  | assignFrom (x y : Nat) (q : List Sel)            -- x = y[q];
  deriving DecidableEq

namespace Stmt
open Cmd

/-- The effect of one statement (Datagram.h:38-100, Datagram.cpp:8-49; see the constructors for the C++ form).
Variables that are not in scope make the statement a no-op. -/
def run : Stmt → M DState Unit
  | decl x t => bindVar x (Datagram.make (Node.ofType t))
  | declVal x v => bindVar x (Datagram.make (Node.ofVal v))
  | declCopy x y => withVar y fun a => bindVar x (Datagram.copyCtor a)
  | touch x p => withVar x fun a => onHeap (do let _ ← follow p a; pure ())
  | setVal x p v => withVar x fun a => onHeap (follow p a >>= fun b => Datagram.assignVal b v)
  | addVal x p v => withVar x fun a => onHeap (follow p a >>= fun b => Datagram.addNew b (Node.ofVal v))
  | addNew x p t => withVar x fun a => onHeap (follow p a >>= fun b => Datagram.addNew b (Node.ofType t))
  | removeKey x p k => withVar x fun a => onHeap (follow p a >>= fun b => Datagram.removeKey b k)
  | removeIdx x p i => withVar x fun a => onHeap (follow p a >>= fun b => Datagram.removeIdx b i)
  | clear x p => withVar x fun a => onHeap (follow p a >>= fun b => Datagram.clear b)
  | assignInto x p y => withVar x fun a => withVar y fun c => onHeap (follow p a >>= fun b => Datagram.assign b c)
  | assignFrom x y q => withVar x fun a => withVar y fun c => onHeap (follow q c >>= fun b => Datagram.assign a b)

end Stmt
end LP
