import Verif.Model.Query
/-!
# Specification: dictionaries as finite maps, lists as sequences
-/
namespace LP

/-- One use of a dictionary datagram `x`. -/
inductive DictOp where
  | put (k : Str) (v : Val)     -- x[k] = v;
  | get (k : Str)               -- x[k];
  | remove (k : Str)            -- x.Remove(k);
  | clear                       -- x.Clear();

/-- The statement a dictionary operation stands for. -/
def DictOp.stmt (x : Nat) : DictOp → Stmt
  | put k v => .setVal x [.key k] v
  | get k => .touch x [.key k]
  | remove k => .removeKey x [] k
  | clear => .clear x []

/-- A finite map from keys to entries; an entry is a value or (`some none`) Empty. -/
abbrev FMap := Str → Option (Option Val)

/-- Change one key. -/
def FMap.upd (m : FMap) (k : Str) (e : Option (Option Val)) : FMap := fun j => if j = k then e else m j

/-- What a dictionary operation does to a finite map, and the exception. -/
def DictOp.spec : DictOp → FMap → FMap × Option Exn
  | put k v, m => (m.upd k (some (some v)), none)
  | get k, m => (if m k = none then m.upd k (some none) else m, none)
  | remove k, m => if m k = none then (m, some (.keyNotFound k)) else (m.upd k none, none)
  | clear, _ => (fun _ => none, none)

/-- A sequence of dictionary operations. -/
def DictOp.specs : List DictOp → FMap → FMap × List (Option Exn)
  | [], m => (m, [])
  | o :: os, m => let r := o.spec m; let q := DictOp.specs os r.1; (q.1, r.2 :: q.2)

/-- One use of a list datagram `x`. -/
inductive ListOp where
  | add (v : Val)                       -- x.Add(make_shared<RawDatagram>(v));
  | set (i : BitVec 32) (v : Val)       -- x[i] = v;
  | get (i : BitVec 32)                 -- x[i];
  | remove (i : BitVec 32)              -- x.Remove(i);
  | clear                               -- x.Clear();

/-- The statement a list operation stands for. -/
def ListOp.stmt (x : Nat) : ListOp → Stmt
  | add v => .addVal x [] v
  | set i v => .setVal x [.idx i] v
  | get i => .touch x [.idx i]
  | remove i => .removeIdx x [] i
  | clear => .clear x []

/-- What a list operation does to a sequence, and the exception. -/
def ListOp.spec : ListOp → List Val → List Val × Option Exn
  | add v, l => (l ++ [v], none)
  | set i v, l => if i.toNat < l.length then (l.take i.toNat ++ v :: l.drop (i.toNat + 1), none) else (l, some (.indexOutOfBounds i.toInt))
  | get i, l => (l, if i.toNat < l.length then none else some (.indexOutOfBounds i.toInt))
  | remove i, l => if i.toNat < l.length then (l.take i.toNat ++ l.drop (i.toNat + 1), none) else (l, some (.indexOutOfBounds i.toInt))
  | clear, _ => ([], none)

/-- A sequence of list operations. -/
def ListOp.specs : List ListOp → List Val → List Val × List (Option Exn)
  | [], l => (l, [])
  | o :: os, l => let r := o.spec l; let q := ListOp.specs os r.1; (q.1, r.2 :: q.2)

end LP
