import Verif.Model.Node
/-!
# The object graph of RawDatagrams

Objects live at addresses; children are `shared_ptr`s, i.e. optional addresses. Recursive member functions take a
recursion bound (`fuel`), because a graph built through raw pointers may be cyclic.
-/
namespace LP

/-- Address of a RawDatagram object (`Addr` is just another spelling of `Nat`). -/
macro "Addr" : term => `(Nat)

/-- `std::shared_ptr<RawDatagram>`; `none` is null (RawDatagram.h:40-41, Datagram.h:15). -/
abbrev Ptr := Option Addr

/-- All RawDatagram objects of the process. Addresses below `next` have been allocated. Simplification: storage is
never reused; an object without owners simply stays unreachable (its destructor has no observable effect)
(RawDatagram.h:37-44). -/
structure Heap where
  next : Addr
  node : Addr → Node Ptr

namespace Heap

/-- The process start: nothing allocated (no code: before the first `make_shared`, Datagram.h:24). -/
def init : Heap := ⟨0, fun _ => Node.empty⟩

/-- Write one object (the assignments in RawDatagram.cpp:8-260). -/
def put (h : Heap) (a : Addr) (n : Node Ptr) : Heap :=
  { h with node := fun b => if b = a then n else h.node b }

/-- `std::make_shared<RawDatagram>(...)` with an already initialised object (e.g. RawDatagram.cpp:49, 103, 350). -/
def alloc (n : Node Ptr) : M Heap Addr := fun h =>
  .ok h.next { (h.put h.next n) with next := h.next + 1 }

/-- Call a member function that touches only the object at `a` (any `mRawDatagram->f(...)`, Datagram.h). -/
def on {α : Type} (a : Addr) (m : M (Node Ptr) α) : M Heap α := fun h =>
  match m (h.node a) with
  | .ok x n => .ok x (h.put a n)
  | .throw e n => .throw e (h.put a n)
  | .ub => .ub
  | .fuel => .fuel

/-- `p->...` on a `shared_ptr`: undefined behaviour if null (e.g. RawDatagram.cpp:61, 69, 510, 533). -/
def deref (p : Ptr) : M Heap Addr := fun h =>
  match p with
  | some a => .ok a h
  | none => .ub

/-- `RawDatagram::Copy` (RawDatagram.cpp:47-80). The loops run over the source's containers, which `Copy` never
changes, so reading them once before the loop is the same. -/
def copy : Nat → Addr → M Heap Addr
  | 0, _ => M.outOfFuel
  | n + 1, a => do
    let c ← alloc Node.empty
    let h ← M.get
    let src := h.node a
    M.modify (fun h => h.put c { (h.node c) with ty := src.ty })
    match src.ty with
    | .empty => pure ()
    | .dict => M.each (fun (kp : Str × Ptr) => do
        let d ← deref kp.2 >>= copy n
        on c (Node.setKey kp.1 (some d))) src.dict
    | .list => M.each (fun (p : Ptr) => do
        let d ← deref p >>= copy n
        on c (Node.add (some d))) src.list
    | .value => match src.value with
      | some v => on c (Node.assignData (some v))
      | none => M.ub
    pure c

/-- The element loop of `operator==` for lists (RawDatagram.cpp:505-518); `sub` compares two children. Reached only
with equal sizes; the `[]`-against-non-`[]` case (iterator past the end) is undefined behaviour. -/
def eqList (sub : Addr → Addr → M Heap Bool) : List Ptr → List Ptr → M Heap Bool
  | [], _ => pure true
  | _ :: _, [] => M.ub
  | p :: ps, q :: qs => do
    let a ← deref p
    let b ← deref q
    let e ← sub a b
    if e then eqList sub ps qs else pure false

/-- The entry loop of `operator==` for dictionaries (RawDatagram.cpp:528-538): look every own key up on the right and
compare right entry with own entry, in this order. -/
def eqDict (sub : Addr → Addr → M Heap Bool) : Dict Ptr → Dict Ptr → M Heap Bool
  | [], _ => pure true
  | (k, p) :: d, rhs =>
    match rhs.find k with
    | none => pure false
    | some q => do
      let b ← deref q
      let a ← deref p
      let e ← sub b a
      if e then eqDict sub d rhs else pure false

/-- `RawDatagram::operator==` with `a` as `*this` and `b` as `rhs` (RawDatagram.cpp:481-545). `operator!=`
(547-550) is its negation. -/
def eq : Nat → Addr → Addr → M Heap Bool
  | 0, _, _ => M.outOfFuel
  | n + 1, a, b => do
    let h ← M.get
    let own := h.node a
    let rhs := h.node b
    if rhs.ty = own.ty then
      match own.ty with
      | .empty => pure true
      | .value => match rhs.value, own.value with
        | some w, some v => pure (Val.equals w v)
        | _, _ => pure false
      | .list => if rhs.list.length = own.list.length then eqList (eq n) own.list rhs.list else pure false
      | .dict => if rhs.dict.length = own.dict.length then eqDict (eq n) own.dict rhs.dict else pure false
    else pure false

/-- The step of `Get<T>(path, default)` that cuts the first token off a non-empty path (RawDatagram.h:208-229). -/
def cutPath (path : Str) : Str × Str :=
  match path.find slash with
  | none => (path, [])
  | some i => (path.substr0 i, if path.length > i + 1 then path.drop (i + 1) else [])

/-- `RawDatagram::Get<T>(path, default)` (RawDatagram.h:192-241). -/
def pathGet (t : VTy) (dflt : Val) : Nat → Str → Addr → M Heap Val
  | 0, _, _ => M.outOfFuel
  | n + 1, path, a => do
    let h ← M.get
    let own := h.node a
    if path.isEmpty then
      if own.isOfType t then on a (Node.getVal t) else pure dflt
    else
      let (tok, rest) := cutPath path
      if own.ty = .dict then
        match own.dict.find tok with
        | some p => do
          let b ← deref p
          pathGet t dflt n rest b
        | none => pure dflt
      else pure dflt

/-- The separator logic of the printing loops (RawDatagram.h:148-161, 170-183). -/
def commaSep : List Str → Str
  | [] => []
  | [x] => x
  | x :: xs => x ++ bs ", " ++ commaSep xs

/-- Run a computation on every element, collecting the results (the loops at RawDatagram.h:149-161 and
RawDatagram.cpp:310-323). -/
def mapM' {α β : Type} (f : α → M Heap β) : List α → M Heap (List β)
  | [] => pure []
  | a :: as => do
    let b ← f a
    let bs ← mapM' f as
    pure (b :: bs)

/-- `operator<<(std::ostream&, const RawDatagram&)` (RawDatagram.h:124-190). `pd`/`po` render doubles and foreign
types. -/
def print (pd : Dbl → Str) (po : Nat → Nat → Str) : Nat → Addr → M Heap Str
  | 0, _ => M.outOfFuel
  | n + 1, a => do
    let h ← M.get
    let own := h.node a
    match own.ty with
    | .empty => pure (bs "null")
    | .value => match own.value with
      | some v => pure (v.print pd po)
      | none => M.ub
    | .list => do
      let xs ← mapM' (fun (p : Ptr) => do
        let b ← deref p
        print pd po n b) own.list
      pure (bs "[" ++ commaSep xs ++ bs "]")
    | .dict => do
      let xs ← mapM' (fun (kp : Str × Ptr) => do
        let b ← deref kp.2
        let s ← print pd po n b
        pure (kp.1 ++ bs ": " ++ s)) own.dict
      pure (bs "{" ++ commaSep xs ++ bs "}")

end Heap
end LP
