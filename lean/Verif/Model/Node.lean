import Verif.Model.Dict
import Verif.Model.Val
import Verif.Model.Out
/-!
# One RawDatagram object

`Node P` is the record of the four data members of a `RawDatagram` (RawDatagram.h:37-44). `P` is the type of child
pointers. The functions of this file touch one object only.
-/
namespace LP

/-- `RawDatagramType` (RawDatagram.h:29-35). -/
inductive Ty where
  | empty | list | dict | value
  deriving DecidableEq, Repr

/-- The data members of a `RawDatagram` (RawDatagram.h:39-44); `value = none` is a null `mValue`. -/
structure Node (P : Type) where
  ty : Ty
  dict : Dict P
  list : List P
  value : Option Val
  deriving Repr

namespace Node
variable {P : Type}

/-- `RawDatagram::RawDatagram()` (RawDatagram.cpp:8-12). -/
def empty : Node P := ⟨.empty, [], [], none⟩

/-- `RawDatagram::RawDatagram(RawDatagramType)` (RawDatagram.cpp:14-27): a fresh Value holds the `int` 0. -/
def ofType (t : Ty) : Node P :=
  match t with
  | .value => ⟨.value, [], [], some (.int 0)⟩
  | t => ⟨t, [], [], none⟩

/-- `RawDatagram::RawDatagram(std::shared_ptr<DataBase>)` (RawDatagram.cpp:29-33); the pointer may be null. -/
def ofData (v : Option Val) : Node P := ⟨.value, [], [], v⟩

/-- `SetValue<T>` (RawDatagram.h:46-58), reached by `operator=(int|bool|double|std::string)`
(RawDatagram.cpp:219-245). -/
def setValue (v : Val) : M (Node P) Unit := M.modify fun n =>
  let n := if n.ty ≠ .value then { n with dict := [], list := [], ty := .value } else n
  { n with value := some v }

/-- `RawDatagram::RawDatagram(ContentType)` (RawDatagram.h:67-73): type Value, null value, then `SetValue`. -/
def ofVal (v : Val) : Node P := ⟨.value, [], [], some v⟩

/-- `operator=(const std::shared_ptr<DataBase>&)` (RawDatagram.cpp:247-260); the pointer may be null. -/
def assignData (v : Option Val) : M (Node P) Unit := M.modify fun n =>
  let n := if n.ty ≠ .value then { n with dict := [], list := [], ty := .value } else n
  { n with value := v }

/-- `KeyExists` (RawDatagram.cpp:87-90). -/
def keyExists (k : Str) (n : Node P) : Bool := n.dict.has k

/-- The conversion at the start of `Get(const std::string&)` (RawDatagram.cpp:94-99). As in the code, `mDictionary`
itself is not cleared here. -/
def toDict (n : Node P) : Node P :=
  if n.ty ≠ .dict then { n with ty := .dict, list := [], value := none } else n

/-- `Get(const std::string&)` / `operator[](std::string)` (RawDatagram.cpp:82-85, 92-107): convert to a dictionary,
create the entry if it is missing (`fresh` is the pointer to the newly made Empty child), and return the pointer in
the slot. -/
def getKey (fresh : P) (k : Str) : M (Node P) P := fun n =>
  let n := toDict n
  match n.dict.find k with
  | some p => .ok p n
  | none => .ok fresh { n with dict := n.dict.insert k fresh }

/-- `(*d)[k] = p` for a raw datagram (e.g. RawDatagram.cpp:61, 392, 471): `operator[]` followed by assignment to the
returned slot. Simplification: the Empty child that `operator[]` creates for a missing key and that the assignment
releases at once is not represented. -/
def setKey (k : Str) (p : P) : M (Node P) Unit := M.modify fun n =>
  let n := toDict n
  { n with dict := n.dict.insert k p }

/-- `Remove(std::string)` (RawDatagram.cpp:109-123). -/
def removeKey (k : Str) : M (Node P) Unit := fun n =>
  if n.ty ≠ .dict then .throw .invalidOperation n
  else match n.dict.find k with
    | none => .throw (.keyNotFound k) n
    | some _ => .ok () { n with dict := n.dict.erase k }

/-- The conversion at the start of `Get(unsigned int)` and `Add` (RawDatagram.cpp:132-137, 152-158). As in the code,
`mList` itself is not cleared here. -/
def toList (n : Node P) : Node P :=
  if n.ty ≠ .list then { n with ty := .list, dict := [], value := none } else n

/-- The `int` that `IndexOutOfBoundsException` stores for an `unsigned int` index
(IndexOutOfBoundsException.h, conversion unsigned → int modulo 2^32). -/
def excIndex (i : BitVec 32) : Int := i.toInt

/-- `Get(unsigned int)` / `operator[](unsigned int)` (RawDatagram.cpp:125-148): the conversion happens before the
bounds check, so it persists when the check throws. -/
def getIdx (i : BitVec 32) : M (Node P) P := fun n =>
  let n := toList n
  match n.list[i.toNat]? with
  | none => .throw (.indexOutOfBounds (excIndex i)) n
  | some p => .ok p n

/-- `Add` (RawDatagram.cpp:150-161). -/
def add (p : P) : M (Node P) Unit := M.modify fun n =>
  let n := toList n
  { n with list := n.list ++ [p] }

/-- `Remove(unsigned int)` (RawDatagram.cpp:163-179). -/
def removeIdx (i : BitVec 32) : M (Node P) Unit := fun n =>
  if n.ty ≠ .list then .throw .invalidOperation n
  else if i.toNat ≥ n.list.length then .throw (.indexOutOfBounds (excIndex i)) n
  else .ok () { n with list := n.list.eraseIdx i.toNat }

/-- `GetCount` (RawDatagram.cpp:181-200): the size is narrowed to `int` and returned as `unsigned int`, i.e. taken
modulo 2^32 (two's complement narrowing). -/
def getCount : M (Node P) (BitVec 32) := fun n =>
  match n.ty with
  | .list => .ok (BitVec.ofNat 32 n.list.length) n
  | .dict => .ok (BitVec.ofNat 32 n.dict.length) n
  | _ => .throw .invalidOperation n

/-- `Clear` (RawDatagram.cpp:202-217): the type is kept. -/
def clear : M (Node P) Unit := fun n =>
  match n.ty with
  | .list => .ok () { n with list := [] }
  | .dict => .ok () { n with dict := [] }
  | _ => .throw .invalidOperation n

/-- `IsOfValueType<T>` (RawDatagram.h:118-122): the dynamic cast of `mValue`, whatever `mType` is. -/
def isOfType (t : VTy) (n : Node P) : Bool :=
  match n.value with
  | some v => v.ty = t
  | none => false

/-- `Get<T>()` (RawDatagram.h:103-116): throws unless the dynamic cast of `mValue` succeeds. -/
def getVal (t : VTy) : M (Node P) Val := fun n =>
  match n.value with
  | some v => if v.ty = t then .ok v n else .throw .invalidOperation n
  | none => .throw .invalidOperation n

end Node
end LP
