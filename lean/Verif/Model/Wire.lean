import Verif.Model.Datagram
/-!
# Serialisation of datagrams to FlatBuffers tables and back
-/
namespace LP

/-- An `FBDatagram` table as its accessors show it (schemas/FBDatagram.fbs:1-36). Absent strings and vectors are
`none` (the accessor returns a null pointer); absent scalars read as their default, so they need no option. Enum fields
are bytes and may hold any byte. The byte layout is the matter of `Model/Flat`. -/
inductive FB where
  | mk (datagramType valueType : UInt8) (string : Option Str) (integer : Int32) (double : Dbl) (boolean : Bool)
      (list : Option (List FB)) (keys : Option (List Str)) (contents : Option (List FB))

namespace FB

/-- Nesting depth of a table; a recursion bound of this size is enough to read it (no code: bounds the recursion of
RawDatagram.cpp:348-402). -/
def depth : FB → Nat
  | mk _ _ _ _ _ _ l _ c => 1 + max (depthO l) (depthO c)
where
  depthO : Option (List FB) → Nat
    | none => 0
    | some l => depthL l
  depthL : List FB → Nat
    | [] => 0
    | t :: ts => max (depth t) (depthL ts)

/-- How a double field reads back: `CreateFBDatagram` (RawDatagram.cpp:335-345) does not store a scalar that compares
equal to the schema default 0.0, and the accessor then returns the default; this loses the sign of a zero. -/
def wireDbl (d : Dbl) : Dbl := if d.isZero then 0 else d

end FB

namespace Heap

/-- `RawDatagram::SerializeToStructure` (RawDatagram.cpp:262-346) followed by `Finish` and access through the generated
accessors. The string offset is null unless a string was created; the three vectors are always created. -/
def serialize : Nat → Addr → M Heap FB
  | 0, _ => M.outOfFuel
  | n + 1, a => do
    let h ← M.get
    let own := h.node a
    match own.ty with
    | .value =>
      if own.isOfType .str then do
        let v ← on a (Node.getVal .str)
        match v with
        | .str s => pure (.mk 1 0 (some s) 0 0 false (some []) (some []) (some []))
        | _ => M.ub
      else if own.isOfType .int then do
        let v ← on a (Node.getVal .int)
        match v with
        | .int i => pure (.mk 1 1 none i 0 false (some []) (some []) (some []))
        | _ => M.ub
      else if own.isOfType .dbl then do
        let v ← on a (Node.getVal .dbl)
        match v with
        | .dbl d => pure (.mk 1 2 none 0 (FB.wireDbl d) false (some []) (some []) (some []))
        | _ => M.ub
      else if own.isOfType .bool then do
        let v ← on a (Node.getVal .bool)
        match v with
        | .bool b => pure (.mk 1 3 none 0 0 b (some []) (some []) (some []))
        | _ => M.ub
      else pure (.mk 0 0 none 0 0 false (some []) (some []) (some []))
    | .list => do
      let xs ← mapM' (fun (p : Ptr) => deref p >>= serialize n) own.list
      pure (.mk 2 0 none 0 0 false (some xs) (some []) (some []))
    | .dict => do
      let xs ← mapM' (fun (kp : Str × Ptr) => deref kp.2 >>= serialize n) own.dict
      pure (.mk 3 0 none 0 0 false (some []) (some (own.dict.map Prod.fst)) (some xs))
    | .empty => pure (.mk 0 0 none 0 0 false (some []) (some []) (some []))

/-- `RawDatagram::DeserializeFromStructure` (RawDatagram.cpp:348-402). An absent string or vector that is accessed is a
null dereference. The enum constants are those of schemas/FBDatagram.fbs:3-17. -/
def deserialize : Nat → FB → M Heap Addr
  | 0, _ => M.outOfFuel
  | n + 1, .mk dt vt str int dbl bool list keys contents => do
    let c ← alloc Node.empty
    if dt = 1 then
      if vt = 0 then
        match str with
        | some s => on c (Node.setValue (.str s))
        | none => M.ub
      else if vt = 2 then on c (Node.setValue (.dbl dbl))
      else if vt = 1 then on c (Node.setValue (.int int))
      else if vt = 3 then on c (Node.setValue (.bool bool))
      else pure ()
    else if dt = 2 then
      match list with
      | some l => M.each (fun x => do
          let d ← deserialize n x
          on c (Node.add (some d))) l
      | none => M.ub
    else if dt = 3 then
      match keys, contents with
      | some ks, some l => M.each (fun (kx : Str × FB) => do
          let d ← deserialize n kx.2
          on c (Node.setKey kx.1 (some d))) (ks.zip l)
      | _, _ => M.ub
    else pure ()
    pure c

end Heap

namespace Datagram
open Heap

/-- `Datagram::SerializeToStructure` (Datagram.h:109-112) with the recursion bound `next + 1`, which no acyclic graph
exhausts. -/
def serialize (a : Addr) : M Heap FB := do
  let h ← M.get
  Heap.serialize (h.next + 1) a

/-- `Datagram::DeserializeFromStructure` (Datagram.h:114-117, Datagram.cpp:22-29); the new RawDatagram is never null. -/
def deserialize (f : FB) : M Heap Addr := Heap.deserialize f.depth f

end Datagram
end LP
