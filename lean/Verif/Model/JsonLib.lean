import Verif.Model.Json
/-!
# The import of JSON with the memory of json-c

`Model/Json` says what datagram a text becomes. Here the objects of the library take part: the tokener made for each import
and the parsed document.
-/
namespace LP
namespace JsonLib

/-- What json-c hands out (RawDatagram.cpp:408-409): a tokener, or a document. Simplification: a document is one block, its
parts are released with it. -/
inductive Block where
  | tokener
  | object (j : Json)

/-- The blocks handed out so far and which of them have not been given back; addresses are not reused (RawDatagram.cpp:412-414). -/
structure Lib where
  next : Nat
  live : Nat → Option Block

/-- Datagrams and blocks of the library (RawDatagram.cpp:404-423). -/
structure State where
  heap : Heap
  lib : Lib

/-- Nothing handed out (no code: before the first call of RawDatagram.cpp:404-423). -/
def Lib.init : Lib := ⟨0, fun _ => none⟩

/-- The library hands out a block (RawDatagram.cpp:412, 414). -/
def Lib.take (b : Block) (l : Lib) : Lib := ⟨l.next + 1, fun p => if p = l.next then some b else l.live p⟩

/-- A statement on datagrams (no code of its own: RawDatagram.cpp:406, 419). -/
def onHeap {α : Type} (m : M Heap α) : M State α := fun s =>
  match m s.heap with
  | .ok a h => .ok a ⟨h, s.lib⟩
  | .throw e h => .throw e ⟨h, s.lib⟩
  | .ub => .ub
  | .fuel => .fuel

/-- `json_tokener_new_ex(1000)` (RawDatagram.cpp:412). Simplification: it does not fail (the code would use the null
pointer). -/
def tokenerNew : M State Nat := fun s => .ok s.lib.next ⟨s.heap, s.lib.take .tokener⟩

/-- `json_tokener_parse_ex` (RawDatagram.cpp:414): the document (the word `null` is a null pointer) and whether `err` is
`json_tokener_success`; using a tokener that does not exist is undefined. -/
def parseEx (tokener : Str → Option Json) (tok : Nat) (text : Str) : M State (Option Nat × Bool) := fun s =>
  match s.lib.live tok with
  | some .tokener =>
    match tokener text with
    | none => .ok (none, false) s
    | some .null => .ok (none, true) s
    | some j => .ok (some s.lib.next, true) ⟨s.heap, s.lib.take (.object j)⟩
  | _ => .ub

/-- The document a pointer leads to (`json_object_get_type` and the other accessors, RawDatagram.cpp:427-471): a null
pointer is the word `null`; a document that does not exist any more is undefined. -/
def document (jobj : Option Nat) : M State Json := fun s =>
  match jobj with
  | none => .ok .null s
  | some p =>
    match s.lib.live p with
    | some (.object j) => .ok j s
    | _ => .ub

/-- `RawDatagram::DeserializeFromJson` (RawDatagram.cpp:404-423), as it stands: neither `json_tokener_free` nor
`json_object_put` is called there or anywhere else in the repository, so that both pointers go out of scope. -/
def importJson (tokener : Str → Option Json) (text : Str) : M State Nat := do
  let c ← onHeap (Heap.alloc Node.empty)
  let tok ← tokenerNew
  let r ← parseEx tokener tok text
  if r.2 then do
    let j ← document r.1
    onHeap (Heap.parseJson j.depth j c)
  else pure ()
  pure c

/-- One import after the other, with anything done to the datagrams in between (LampPost.cpp:67-73: it imports one text for each
configuration file). -/
def imports (tokener : Str → Option Json) : List (Str × (Heap → Heap)) → M State Unit
  | [] => pure ()
  | (text, f) :: rest => do
    let _ ← importJson tokener text
    M.modify fun s => ⟨f s.heap, s.lib⟩
    imports tokener rest

end JsonLib
end LP
