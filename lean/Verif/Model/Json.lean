import Verif.Model.Datagram
/-!
# Import of JSON documents
-/
namespace LP

/-- A `json_object` tree as json-c hands it to `ParseJsonObject` (RawDatagram.cpp:425-479). `int` is the stored 64-bit
number, `obj` lists the members in iteration order. Simplification: reference counting (the tree is never released,
RawDatagram.cpp:404-423) is not modelled. -/
inductive Json where
  | null
  | bool (b : Bool)
  | double (d : Dbl)
  | int (i : Int)
  | string (s : Str)
  | array (js : List Json)
  | object (ms : List (Str × Json))

namespace Json

/-- Nesting depth; a recursion bound of this size is enough (no code: bounds the recursion of
RawDatagram.cpp:425-479). -/
def depth : Json → Nat
  | array js => 1 + depthL js
  | object ms => 1 + depthM ms
  | _ => 1
where
  depthL : List Json → Nat
    | [] => 0
    | t :: ts => max (depth t) (depthL ts)
  depthM : List (Str × Json) → Nat
    | [] => 0
    | (_, t) :: ts => max (depth t) (depthM ts)

/-- `json_object_get_int` (called at RawDatagram.cpp:440): the stored 64-bit number clamped to the range of `int`. -/
def getInt (i : Int) : Int32 :=
  if i < -2147483648 then Int32.ofInt (-2147483648) else if 2147483647 < i then Int32.ofInt 2147483647 else Int32.ofInt i

/-- `std::string(const char*)` as applied to `json_object_get_string` and to member keys (RawDatagram.cpp:445, 471):
everything before the first NUL byte. -/
def cstr (s : Str) : Str := s.takeWhile (· ≠ 0)

end Json

namespace Heap

/-- `RawDatagram::ParseJsonObject` (RawDatagram.cpp:425-479) filling the RawDatagram at `root`. -/
def parseJson : Nat → Json → Addr → M Heap Unit
  | 0, _, _ => M.outOfFuel
  | n + 1, j, root =>
    match j with
    | .bool b => on root (Node.setValue (.bool b))
    | .double d => on root (Node.setValue (.dbl d))
    | .int i => on root (Node.setValue (.int (Json.getInt i)))
    | .string s => on root (Node.setValue (.str (Json.cstr s)))
    | .array js => M.each (fun x => do
        let d ← (do
          let c ← alloc Node.empty
          parseJson n x c
          pure c)
        on root (Node.add (some d))) js
    | .object ms => M.each (fun (kx : Str × Json) => do
        let d ← (do
          let c ← alloc Node.empty
          parseJson n kx.2 c
          pure c)
        on root (Node.setKey (Json.cstr kx.1) (some d))) ms
    | .null => pure ()

end Heap

namespace Datagram
open Heap

/-- `Datagram::DeserializeFromJson` (Datagram.h:119-122, RawDatagram.cpp:404-423). The tokener is a parameter; `none` is
any result other than `json_tokener_success`. -/
def deserializeJson (tokener : Str → Option Json) (text : Str) : M Heap Addr := do
  let c ← alloc Node.empty
  match tokener text with
  | some j => parseJson j.depth j c
  | none => pure ()
  pure c

end Datagram
end LP
