import Verif.Model.Heap
/-!
# The `Datagram` class

A `Datagram` is a handle: a non-null `shared_ptr<RawDatagram>` (`mRawDatagram`, Datagram.h:15). It is modelled by the
address of the RawDatagram. `Datagram::operator[]` returns a handle to the very child object (the returned prvalue is
not copied: copy elision).
-/
namespace LP
namespace Datagram
open Heap

/-- `mRawDatagram->Copy()` with a recursion bound that every acyclic graph stays below (an acyclic graph over `next`
objects has depth at most `next`); RawDatagram.cpp:47-80. -/
def copyAll (a : Addr) : M Heap Addr := fun h => copy (h.next + 1) a h

/-- `Datagram()` / `Datagram(args...)` with a value, and `Datagram(RawDatagramType)` (Datagram.h:22-26,
Datagram.cpp:17-20): allocate the given RawDatagram. -/
def make (n : Node Ptr) : M Heap Addr := alloc n

/-- `*x = *c` for RawDatagrams: the implicit memberwise copy assignment copies all four members (child pointers are
shared), then the temporary `c` is destroyed, which clears it (`~RawDatagram`, RawDatagram.cpp:35-40). -/
def assignFromTemp (x c : Addr) : M Heap Unit := M.modify fun h =>
  (h.put x (h.node c)).put c Node.empty

/-- `Datagram(const Datagram&)` (Datagram.cpp:8-15). -/
def copyCtor (a : Addr) : M Heap Addr := do
  let x ← alloc Node.empty
  let c ← copyAll a
  assignFromTemp x c
  pure x

/-- `operator=(const Datagram&)` (Datagram.h:82-87): `x = y`. -/
def assign (x y : Addr) : M Heap Unit := do
  let c ← copyAll y
  assignFromTemp x c

/-- `operator=(ContentType)` for `int`, `bool`, `double`, `std::string` (Datagram.h:74-80, RawDatagram.cpp:219-245). -/
def assignVal (x : Addr) (v : Val) : M Heap Unit := on x (Node.setValue v)

/-- `(*mRawDatagram)[key]` (RawDatagram.cpp:92-107): a child is allocated only if the key is missing. -/
def rawGetKey (a : Addr) (k : Str) : M Heap Ptr := do
  let h ← M.get
  if (h.node a).dict.has k then on a (Node.getKey none k)
  else do
    let c ← alloc Node.empty
    on a (Node.getKey (some c) k)

/-- `operator[](std::string)` (Datagram.h:43-53): a null entry is replaced by a fresh Empty. -/
def indexKey (a : Addr) (k : Str) : M Heap Addr := do
  let p ← rawGetKey a k
  match p with
  | some b => pure b
  | none => do
    let c ← alloc Node.empty
    on a (Node.setKey k (some c))
    pure c

/-- `operator[](unsigned int)` (Datagram.h:38-41 with Datagram.cpp:22-29): a null element yields a handle to a fresh
Empty that is not stored in the list. -/
def indexIdx (a : Addr) (i : BitVec 32) : M Heap Addr := do
  let p ← on a (Node.getIdx i)
  match p with
  | some b => pure b
  | none => alloc Node.empty

/-- `Add(std::make_shared<RawDatagram>(...))` (Datagram.h:55-59, RawDatagram.cpp:150-161) with a new RawDatagram. -/
def addNew (a : Addr) (n : Node Ptr) : M Heap Unit := do
  let c ← alloc n
  on a (Node.add (some c))

/-- `Remove(std::string)` (Datagram.h:63-67). -/
def removeKey (a : Addr) (k : Str) : M Heap Unit := on a (Node.removeKey k)

/-- `Remove(unsigned int)` (Datagram.h:63-67). -/
def removeIdx (a : Addr) (i : BitVec 32) : M Heap Unit := on a (Node.removeIdx i)

/-- `Clear` (Datagram.cpp:46-49). -/
def clear (a : Addr) : M Heap Unit := on a Node.clear

/-- `GetCount` (Datagram.cpp:41-44). -/
def getCount (a : Addr) : M Heap (BitVec 32) := on a Node.getCount

/-- `GetType` (Datagram.cpp:51-54). -/
def getType (a : Addr) : M Heap Ty := fun h => .ok (h.node a).ty h

/-- `IsEmpty` (Datagram.cpp:56-59). -/
def isEmpty (a : Addr) : M Heap Bool := fun h => .ok ((h.node a).ty = .empty) h

/-- `KeyExists` (Datagram.cpp:31-34). -/
def keyExists (a : Addr) (k : Str) : M Heap Bool := fun h => .ok ((h.node a).keyExists k) h

/-- `Get<T>()` and, with `T = std::string`, `operator std::string` (Datagram.h:30-34, 89-92). -/
def getVal (a : Addr) (t : VTy) : M Heap Val := on a (Node.getVal t)

/-- `Get<T>(path, default)` (Datagram.h:96-100). The recursion of the path lookup consumes at least one path byte per
level, so `path.length + 1` is enough fuel for every graph. -/
def pathGet (a : Addr) (t : VTy) (path : Str) (dflt : Val) : M Heap Val := Heap.pathGet t dflt (path.length + 1) path a

/-- `operator==` (Datagram.cpp:36-39): the right operand's RawDatagram is compared with the left one's. -/
def eq (a b : Addr) : M Heap Bool := fun h => Heap.eq (h.next + 1) b a h

end Datagram
end LP
