import Verif.Spec.Doc
import Verif.Spec.Ieee
import Verif.Model.Query
/-!
# Specification: what reading calls return on a document, and when two documents are the same
-/
namespace LP

/-- Two stored values are the same: same type and same content; doubles by the number they stand for, a
NaN being the same as nothing. -/
inductive ValSame : Val → Val → Prop where
  | str (s : Str) : ValSame (.str s) (.str s)
  | int (i : Int32) : ValSame (.int i) (.int i)
  | bool (b : Bool) : ValSame (.bool b) (.bool b)
  | other (n c : Nat) : ValSame (.other n c) (.other n c)
  | dbl (d e : Dbl) : Ieee.value d = Ieee.value e → Ieee.value d ≠ none → ValSame (.dbl d) (.dbl e)

/-- Two documents are the same: same kind; same value, same elements in order, or same keys with the same entries. -/
inductive Same : Tree → Tree → Prop where
  | empty : Same .empty .empty
  | value {v w : Val} : ValSame v w → Same (.value v) (.value w)
  | list {ts us : List Tree} : ts.length = us.length →
      (∀ (i : Nat) t u, ts[i]? = some t → us[i]? = some u → Same t u) → Same (.list ts) (.list us)
  | dict {ds es : List (Str × Tree)} : (∀ k, (Dict.find k ds).isSome = (Dict.find k es).isSome) →
      (∀ k t u, Dict.find k ds = some t → Dict.find k es = some u → Same t u) → Same (.dict ds) (.dict es)

/-- Two documents have exactly the same content: as `Same`, but with identical values. -/
inductive Alike : Tree → Tree → Prop where
  | empty : Alike .empty .empty
  | value (v : Val) : Alike (.value v) (.value v)
  | list {ts us : List Tree} : ts.length = us.length →
      (∀ (i : Nat) t u, ts[i]? = some t → us[i]? = some u → Alike t u) → Alike (.list ts) (.list us)
  | dict {ds es : List (Str × Tree)} : (∀ k, (Dict.find k ds).isSome = (Dict.find k es).isSome) →
      (∀ k t u, Dict.find k ds = some t → Dict.find k es = some u → Alike t u) → Alike (.dict ds) (.dict es)

/-- The document contains a NaN at some depth. -/
inductive HasNaN : Tree → Prop where
  | here {d : Dbl} : Ieee.value d = none → HasNaN (.value (.dbl d))
  | list {t : Tree} {ts : List Tree} : t ∈ ts → HasNaN t → HasNaN (.list ts)
  | dict {k : Str} {t : Tree} {ds : List (Str × Tree)} : (k, t) ∈ ds → HasNaN t → HasNaN (.dict ds)

namespace Tree

/-- The kind of a document. -/
def kind : Tree → Ty
  | .empty => .empty
  | .value _ => .value
  | .list _ => .list
  | .dict _ => .dict

/-- The document reached by a sequence of keys. -/
def walk : List Str → Tree → Option Tree
  | [], t => some t
  | k :: ks, .dict ds => match Dict.find k ds with
    | some t => walk ks t
    | none => none
  | _ :: _, _ => none

/-- Split at every slash. -/
def splitSlash : Str → List Str
  | [] => [[]]
  | c :: p => if c = slash then [] :: splitSlash p else match splitSlash p with
    | k :: ks => (c :: k) :: ks
    | [] => [[c]]

/-- The keys a path spells: its slash-separated components, where a final slash (or an empty path) adds no empty key. -/
def components (p : Str) : List Str :=
  if (splitSlash p).getLast? = some [] then (splitSlash p).dropLast else splitSlash p

/-- The path spelling a key sequence. -/
def joinSlash : List Str → Str
  | [] => []
  | [k] => k
  | k :: j :: r => k ++ [slash] ++ joinSlash (j :: r)

/-- The document at a position of keys and indices, if there is one. -/
def lookup : List Sel → Tree → Option Tree
  | [], t => some t
  | .key k :: p, t => (Dict.find k t.asDict).bind (lookup p)
  | .idx i :: p, t => (t.asList[i.toNat]?).bind (lookup p)

/-- Two positions that part at some step: after a common beginning they take different keys, or different indices. -/
def Diverge (p q : List Sel) : Prop :=
  ∃ c p' q', (∃ k j, k ≠ j ∧ p = c ++ .key k :: p' ∧ q = c ++ .key j :: q') ∨
    (∃ i j, i ≠ j ∧ p = c ++ .idx i :: p' ∧ q = c ++ .idx j :: q')

/-- The value a document holds at a key sequence, if it is there and has exactly the requested type. -/
def valueAt (ty : VTy) (ks : List Str) (t : Tree) : Option Val :=
  match walk ks t with
  | some (.value v) => if v.ty = ty then some v else none
  | _ => none

/-- Elements separated by a comma and a blank. -/
def joinComma : List Str → Str
  | [] => []
  | [x] => x
  | x :: y :: r => x ++ [44, 32] ++ joinComma (y :: r)

mutual
/-- The text of a document. -/
def text (pd : Dbl → Str) (po : Nat → Nat → Str) : Tree → Str
  | .empty => [110, 117, 108, 108]
  | .value (.str s) => [34] ++ s ++ [34]
  | .value (.int i) => intToStr i.toInt
  | .value (.bool b) => if b then [49] else [48]
  | .value (.dbl d) => pd d
  | .value (.other n c) => po n c
  | .list ts => [91] ++ joinComma (textL pd po ts) ++ [93]
  | .dict ds => [123] ++ joinComma (textD pd po ds) ++ [125]
/-- The texts of list elements, in order. -/
def textL (pd : Dbl → Str) (po : Nat → Nat → Str) : List Tree → List Str
  | [] => []
  | t :: ts => text pd po t :: textL pd po ts
/-- The texts of dictionary entries, in key order. -/
def textD (pd : Dbl → Str) (po : Nat → Nat → Str) : List (Str × Tree) → List Str
  | [] => []
  | (k, t) :: ds => (k ++ [58, 32] ++ text pd po t) :: textD pd po ds
end

/-- What a reading call returns on a document. -/
def answer (pd : Dbl → Str) (po : Nat → Nat → Str) (t : Tree) : Query → Except Exn Ans
  | .getType => .ok (.ty t.kind)
  | .isEmpty => .ok (.bool (match t with | .empty => true | _ => false))
  | .keyExists k => .ok (.bool (match t with | .dict ds => (Dict.find k ds).isSome | _ => false))
  | .getCount => match t with
    | .list ts => .ok (.count (BitVec.ofNat 32 ts.length))
    | .dict ds => .ok (.count (BitVec.ofNat 32 ds.length))
    | _ => .error .invalidOperation
  | .getVal ty => match t with
    | .value v => if v.ty = ty then .ok (.val v) else .error .invalidOperation
    | _ => .error .invalidOperation
  | .getPath ty path dflt => .ok (.val ((t.valueAt ty (components path)).getD dflt))
  | .print => .ok (.text (t.text pd po))

end Tree

/-- Run the documents through a list of statements, noting the exceptions. -/
def Store.steps (s : Store) : List Stmt → Store × List (Option Exn)
  | [] => (s, [])
  | c :: cs => let r := s.step c; let q := Store.steps r.1 cs; (q.1, r.2 :: q.2)

end LP
