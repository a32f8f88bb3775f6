import Verif.Model.Wire
import Verif.Model.Query
/-!
# Messages
-/
namespace LP

/-- `class Message` (Message.h:20-51): `mSender`, `mTopic`, and the RawDatagram behind `mDatagram`. -/
structure Msg where
  sender : Str
  topic : Str
  dg : Nat
  deriving DecidableEq

/-- An `FBMessage` table as its accessors show it (schemas/FBMessage.fbs:5-11): every field may be absent. -/
structure FBM where
  sender : Option Str
  topic : Option Str
  datagram : Option FB

namespace Msg
open Heap

/-- The constructor (Message.cpp:6-11). `p` is the by-value parameter `datagram`; the member is copy-constructed from it
(Datagram.cpp:8-15). -/
def ctor (sender topic : Str) (p : Nat) : M Heap Msg := do
  let c ← Datagram.copyCtor p
  pure ⟨sender, topic, c⟩

/-- The constructor called with an lvalue datagram: the parameter is itself a copy (Message.h:29, Datagram.cpp:8-15). -/
def make (sender topic : Str) (d : Nat) : M Heap Msg := do
  let p ← Datagram.copyCtor d
  ctor sender topic p

/-- The implicit copy constructor (Message.h:20-30; a declared destructor suppresses the move constructor). -/
def copy (m : Msg) : M Heap Msg := do
  let c ← Datagram.copyCtor m.dg
  pure ⟨m.sender, m.topic, c⟩

/-- `GetDatagram` (Message.cpp:23-26) returns by value: a copy. -/
def getDatagram (m : Msg) : M Heap Nat := Datagram.copyCtor m.dg

/-- `SerializeToBytes` (Message.cpp:28-42), the resulting buffer seen through the generated accessors. -/
def serialize (m : Msg) : M Heap FBM := do
  let f ← Datagram.serialize m.dg
  pure ⟨some m.sender, some m.topic, some f⟩

/-- `Deserialize` (Message.cpp:44-52) on a buffer whose root table is `f`. An absent field is a null dereference. The
datagram argument is a prvalue, so the parameter is the deserialised object itself. -/
def deserialize (f : FBM) : M Heap Msg :=
  match f.sender, f.topic, f.datagram with
  | some s, some t, some d => do
    let p ← Datagram.deserialize d
    ctor s t p
  | _, _, _ => M.ub

/-- `operator==` (Message.cpp:54-57): `lhs == rhs` compares `rhs.mDatagram == lhs.mDatagram`. -/
def eq (m r : Msg) : M Heap Bool :=
  if r.sender = m.sender ∧ r.topic = m.topic then Datagram.eq r.dg m.dg else pure false

/-- `PrependSender` (Message.cpp:59-62). -/
def prependSender (n : Str) (m : Msg) : Msg := { m with sender := n ++ bs "/" ++ m.sender }

/-- `WasSentBySender` (Message.cpp:72-75). -/
def wasSentBySender (n : Str) (m : Msg) : Bool := m.sender.take (n.length + 1) == n ++ bs "/"

/-- `RemoveSender` (Message.cpp:64-70). -/
def removeSender (n : Str) (m : Msg) : Msg :=
  if m.sender.take (n.length + 1) = n ++ bs "/" then { m with sender := m.sender.drop (n.length + 1) } else m

/-- `operator<<` (Message.h:40-45). -/
def print (pd : Dbl → Str) (po : Nat → Nat → Str) (m : Msg) : M Heap Str := do
  let h ← M.get
  let d ← Heap.print pd po (h.next + 1) m.dg
  pure (bs "[" ++ m.sender ++ bs " to " ++ m.topic ++ bs "]: " ++ d)

end Msg
end LP
