import Verif.Spec.Tree
import Verif.Model.Prog
/-!
# Specification: datagram variables as independent documents

The intended reading of the Datagram API: every variable holds its own document (a `Tree`), statements edit documents.
No heap, no pointers, no sharing.
-/
namespace LP
namespace Tree

/-- The entries of a dictionary document; other documents have none. -/
def asDict : Tree → List (Str × Tree)
  | .dict ds => ds
  | _ => []

/-- The elements of a list document; other documents have none. -/
def asList : Tree → List Tree
  | .list ts => ts
  | _ => []

/-- The document a fresh datagram of a given kind holds. -/
def ofType : Ty → Tree
  | .empty => .empty
  | .list => .list []
  | .dict => .dict []
  | .value => .value (.int 0)

/-- An edit of a document: the new document and the exception, if any. -/
abbrev Edit := Tree → Tree × Option Exn

/-- Apply an edit at a position. A key step makes the document a dictionary and a missing entry Empty; an index step
makes the document a list and fails if there is no such element. -/
def editAt : List Sel → Edit → Edit
  | [], f, t => f t
  | .key k :: p, f, t =>
    let r := editAt p f ((Dict.find k t.asDict).getD .empty)
    (.dict (Dict.insert k r.1 t.asDict), r.2)
  | .idx i :: p, f, t =>
    match t.asList[i.toNat]? with
    | none => (.list t.asList, some (.indexOutOfBounds i.toInt))
    | some u =>
      let r := editAt p f u
      (.list (t.asList.set i.toNat r.1), r.2)

/-- The document at a position, missing ones reading as Empty. -/
def subAt : List Sel → Tree → Tree
  | [], t => t
  | .key k :: p, t => subAt p ((Dict.find k t.asDict).getD .empty)
  | .idx i :: p, t => subAt p ((t.asList[i.toNat]?).getD .empty)

/-- Leave the document alone. -/
def eTouch : Edit := fun t => (t, none)
/-- Replace the document. -/
def eSet (u : Tree) : Edit := fun _ => (u, none)
/-- Append to a list; a non-list becomes a list first. -/
def eAdd (u : Tree) : Edit := fun t => (.list (t.asList ++ [u]), none)
/-- Remove an entry. -/
def eRemoveKey (k : Str) : Edit := fun t =>
  match t with
  | .dict ds => if (Dict.find k ds).isSome then (.dict (Dict.erase k ds), none) else (t, some (.keyNotFound k))
  | t => (t, some .invalidOperation)
/-- Remove an element. -/
def eRemoveIdx (i : BitVec 32) : Edit := fun t =>
  match t with
  | .list ts => if i.toNat < ts.length then (.list (ts.eraseIdx i.toNat), none) else (t, some (.indexOutOfBounds i.toInt))
  | t => (t, some .invalidOperation)
/-- Remove everything, keeping the kind. -/
def eClear : Edit := fun t =>
  match t with
  | .list _ => (.list [], none)
  | .dict _ => (.dict [], none)
  | t => (t, some .invalidOperation)

end Tree

/-- The documents of all variables. -/
abbrev Store := Nat → Option Tree

namespace Store
open Tree

/-- Rebind a variable. -/
def set (s : Store) (x : Nat) (t : Tree) : Store := fun y => if y = x then some t else s y

/-- Edit the document of a variable. -/
def edit (s : Store) (x : Nat) (e : Edit) : Store × Option Exn :=
  match s x with
  | none => (s, none)
  | some t => (s.set x (e t).1, (e t).2)

/-- The intended effect of a statement on the documents. -/
def step (s : Store) : Stmt → Store × Option Exn
  | .decl x ty => (s.set x (Tree.ofType ty), none)
  | .declVal x v => (s.set x (.value v), none)
  | .declCopy x y => match s y with
    | none => (s, none)
    | some t => (s.set x t, none)
  | .touch x p => s.edit x (editAt p eTouch)
  | .setVal x p v => s.edit x (editAt p (eSet (.value v)))
  | .addVal x p v => s.edit x (editAt p (eAdd (.value v)))
  | .addNew x p ty => s.edit x (editAt p (eAdd (Tree.ofType ty)))
  | .removeKey x p k => s.edit x (editAt p (eRemoveKey k))
  | .removeIdx x p i => s.edit x (editAt p (eRemoveIdx i))
  | .clear x p => s.edit x (editAt p eClear)
  | .assignInto x p y => match s x, s y with
    | some t, some u =>
      if x = y then
        -- the position is opened first, then the whole (opened) document is copied into it
        match editAt p eTouch t with
        | (t1, some e) => (s.set x t1, some e)
        | (t1, none) => s.edit x (editAt p (eSet t1))
      else s.edit x (editAt p (eSet u))
    | _, _ => (s, none)
  | .assignFrom x y q => match s x, s y with
    | some _, some u =>
      match editAt q eTouch u with
      | (u1, some e) => (s.set y u1, some e)
      | (u1, none) => ((s.set y u1).set x (subAt q u), none)
    | _, _ => (s, none)

end Store
end LP
