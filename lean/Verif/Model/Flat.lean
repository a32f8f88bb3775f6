import Verif.Model.Link
/-!
# The bytes of a message: how a received buffer is read, how a buffer to be sent is built

The code reads a received buffer with the accessors flatc generates from schemas/FBDatagram.fbs and
schemas/FBMessage.fbs (Message.cpp:44-52, RawDatagram.cpp:348-402) and never runs the verifier of the library. The library
is not part of /repo (3rdparty/flatbuffers is an empty submodule), so the accessors and the builder are modelled from the
published FlatBuffers format and the published `FlatBufferBuilder`: little-endian scalars, tables with a signed offset to
their vtable, unsigned forward offsets to strings, vectors and tables. A misaligned read of a scalar is undefined behaviour
(`ReadScalar` dereferences a pointer of the scalar's type); the buffer itself comes from `new[]` (RawBytes.cpp:22, 48, 54) and is
aligned for every scalar, so the position in it decides.
-/
namespace LP.Flat

/-- The bytes `RawBytes::GetContent` points to (RawBytes.h:25, Message.cpp:46). -/
abbrev Bytes := List UInt8

/-- Outcome of reading: a value, an access outside the buffer or a misaligned one (undefined behaviour), or recursion bound exhausted
(the accesses of Message.cpp:44-52 and RawDatagram.cpp:348-402). -/
inductive Rd (α : Type) where
  | ok (a : α)
  | outside
  | fuel
  deriving DecidableEq

namespace Rd
variable {α β : Type}

/-- Sequencing of reads (Message.cpp:44-52, RawDatagram.cpp:348-402): the first one that fails decides. -/
def bind (m : Rd α) (f : α → Rd β) : Rd β :=
  match m with
  | ok a => f a
  | outside => outside
  | fuel => fuel

/-- Instances for `do` notation; they stand for the sequencing of statements (RawDatagram.cpp:348-402). -/
instance : Monad Rd where
  pure := ok
  bind := bind

/-- A loop over indices that collects what each iteration yields (RawDatagram.cpp:380-383, 390-393). -/
def each (f : Nat → Rd β) : List Nat → Rd (List β)
  | [] => ok []
  | i :: is => do
    let x ← f i
    let xs ← each f is
    pure (x :: xs)

end Rd

/-! ## Reading -/

/-- The number little-endian bytes stand for (`ReadScalar`, used by every accessor called in RawDatagram.cpp:348-402). -/
def le : Bytes → Nat
  | [] => 0
  | x :: xs => x.toNat + 256 * le xs

/-- Reading `n` bytes at position `p` of the buffer (Message.cpp:46-51): nothing checks that they lie inside. -/
def rd (b : Bytes) (p n : Nat) : Rd Bytes := if p + n ≤ b.length then .ok ((b.drop p).take n) else .outside

/-- An unsigned scalar of `n` bytes at position `p` (`ReadScalar`; Message.cpp:46-51), undefined when it is not aligned. -/
def uint (b : Bytes) (p n : Nat) : Rd Nat :=
  if p % n = 0 then do
    let w ← rd b p n
    pure (le w)
  else .outside

/-- A 32-bit word read as `soffset_t` (the accessors of Message.cpp:46-51). -/
def signed (n : Nat) : Int := if n < 2 ^ 31 then n else (n : Int) - 2 ^ 32

/-- `Table::GetOptionalFieldOffset` and the pointer made of it: where the field with vtable offset `vo` of the table at
position `t` lies, `none` when the table does not have it (every accessor of Message.cpp:48-51 and RawDatagram.cpp:352-394). -/
def field (b : Bytes) (t vo : Nat) : Rd (Option Nat) := do
  let s ← uint b t 4
  let v : Int := t - signed s
  if v < 0 then .outside
  else do
    let size ← uint b v.toNat 2
    if vo < size then do
      let o ← uint b (v.toNat + vo) 2
      pure (if o = 0 then none else some (t + o))
    else pure none

/-- `Table::GetField`: a scalar field of `n` bytes whose default is 0 (RawDatagram.cpp:352-372). -/
def scalar (b : Bytes) (t vo n : Nat) : Rd Nat := do
  match ← field b t vo with
  | none => pure 0
  | some p => uint b p n

/-- Following the offset at position `p` (`GetFBMessage`, Message.cpp:46; `Vector::operator[]`, RawDatagram.cpp:382, 392). -/
def target (b : Bytes) (p : Nat) : Rd Nat := do
  let o ← uint b p 4
  pure (p + o)

/-- `Table::GetPointer`: where the string, vector or table a field refers to lies, `none` for a null pointer
(Message.cpp:49-51, RawDatagram.cpp:359, 378, 388). -/
def pointer (b : Bytes) (t vo : Nat) : Rd (Option Nat) := do
  match ← field b t vo with
  | none => pure none
  | some p => do
    let q ← target b p
    pure (some q)

/-- `String::str` of the string at position `p` (Message.cpp:49-50, RawDatagram.cpp:359, 392): a length and as many bytes. -/
def string (b : Bytes) (p : Nat) : Rd Str := do
  let n ← uint b p 4
  rd b (p + 4) n

/-- A string field, `none` for a null pointer (Message.cpp:49-50, RawDatagram.cpp:359). -/
def stringField (b : Bytes) (t vo : Nat) : Rd (Option Str) := do
  match ← pointer b t vo with
  | none => pure none
  | some p => do
    let s ← string b p
    pure (some s)

/-- `Vector::operator[]` for a vector of offsets at position `p` (RawDatagram.cpp:382, 392). -/
def element (b : Bytes) (p i : Nat) : Rd Nat := target b (p + 4 + 4 * i)

/-- The part of an `FBDatagram` table at position `t` that `RawDatagram::DeserializeFromStructure` reads
(RawDatagram.cpp:348-402; vtable offsets 4, 6, ..., 20 in the order of schemas/FBDatagram.fbs:19-33). Fields that are not
read there are not read here; they show the value the code writes for unused fields. -/
def datagram : Nat → Bytes → Nat → Rd FB
  | 0, _, _ => .fuel
  | n + 1, b, t => do
    let dt ← scalar b t 4 1
    if dt = 1 then do
      let vt ← scalar b t 6 1
      if vt = 0 then do
        let s ← stringField b t 8
        pure (.mk 1 0 s 0 0 false (some []) (some []) (some []))
      else if vt = 2 then do
        let d ← scalar b t 12 8
        pure (.mk 1 2 none 0 (BitVec.ofNat 64 d) false (some []) (some []) (some []))
      else if vt = 1 then do
        let i ← scalar b t 10 4
        pure (.mk 1 1 none (Int32.ofInt i) 0 false (some []) (some []) (some []))
      else if vt = 3 then do
        let x ← scalar b t 14 1
        pure (.mk 1 3 none 0 0 (x != 0) (some []) (some []) (some []))
      else pure (.mk 1 (UInt8.ofNat vt) none 0 0 false (some []) (some []) (some []))
    else if dt = 2 then do
      match ← pointer b t 16 with
      | none => pure (.mk 2 0 none 0 0 false none (some []) (some []))
      | some q => do
        let k ← uint b q 4
        let xs ← Rd.each (fun i => do
          let c ← element b q i
          datagram n b c) (List.range k)
        pure (.mk 2 0 none 0 0 false (some xs) (some []) (some []))
    else if dt = 3 then do
      match ← pointer b t 18 with
      | none => pure (.mk 3 0 none 0 0 false (some []) none (some []))
      | some q => do
        match ← pointer b t 20 with
        | none => pure (.mk 3 0 none 0 0 false (some []) (some []) none)
        | some r => do
          let k1 ← uint b q 4
          let k2 ← uint b r 4
          let xs ← Rd.each (fun i => do
            let sp ← element b q i
            let s ← string b sp
            let c ← element b r i
            let f ← datagram n b c
            pure (s, f)) (List.range (min k1 k2))
          pure (.mk 3 0 none 0 0 false (some []) (some (xs.map Prod.fst)) (some (xs.map Prod.snd)))
    else pure (.mk (UInt8.ofNat dt) 0 none 0 0 false (some []) (some []) (some []))

/-- What `Message::Deserialize` reads of a buffer (Message.cpp:44-52; vtable offsets 4, 6, 8 in the order of
schemas/FBMessage.fbs:5-11). -/
def message (b : Bytes) : Rd FBM := do
  let t ← target b 0
  let s ← stringField b t 4
  let p ← stringField b t 6
  match ← pointer b t 8 with
  | none => pure ⟨s, p, none⟩
  | some q => do
    let d ← datagram (b.length + 1) b q
    pure ⟨s, p, some d⟩

/-- `Message::Deserialize` on bytes (Message.cpp:44-52). -/
def deserialize (b : Bytes) : M Heap Msg :=
  match message b with
  | .ok f => Msg.deserialize f
  | .outside => M.ub
  | .fuel => M.outOfFuel

/-! ## Writing -/

/-- `n` little-endian bytes of a number (`WriteScalar`, used by every builder call of RawDatagram.cpp:262-346). -/
def put : Nat → Nat → Bytes
  | 0, _ => []
  | n + 1, v => UInt8.ofNat v :: put n (v / 256)

/-- A `FlatBufferBuilder` (Message.cpp:30): the buffer grows towards lower addresses, so its first byte is the one written
last, and an offset counts the bytes from an object to the end of the buffer. `vtables` are the vtables written so far. -/
structure Builder where
  buf : Bytes
  vtables : List Nat
  minalign : Nat

namespace Builder

/-- A new builder (Message.cpp:30). -/
def new : Builder := ⟨[], [], 1⟩

/-- `PushBytes` (in `CreateString`, Message.cpp:32-33). -/
def push (w : Bytes) (st : Builder) : Builder := { st with buf := w ++ st.buf }

/-- `PreAlign`: padding so that the buffer is aligned to `a` once `len` more bytes have been written (Message.cpp:32-39). -/
def preAlign (len a : Nat) (st : Builder) : Builder :=
  { st with buf := List.replicate ((a - (st.buf.length + len) % a) % a) 0 ++ st.buf, minalign := max st.minalign a }

/-- `PushElement` of a scalar of `n` bytes: align, then write (Message.cpp:32-39). -/
def scalar (n v : Nat) (st : Builder) : Builder := (st.preAlign 0 n).push (put n v)

/-- `PushElement` of an offset: `ReferTo` turns it into the distance from where it is written (Message.cpp:36-39). -/
def refer (o : Nat) (st : Builder) : Builder :=
  let st := st.preAlign 0 4
  st.scalar 4 (st.buf.length - o + 4)

/-- `CreateString` (Message.cpp:32-33, RawDatagram.cpp:284, 321): the bytes with a terminating zero, and the length. -/
def createString (s : Str) (st : Builder) : Nat × Builder :=
  let st := (((st.preAlign (s.length + 1) 4).push [0]).push s).scalar 4 s.length
  (st.buf.length, st)

/-- The elements of a vector of offsets, the last one first (RawDatagram.cpp:331-333). -/
def elements : List Nat → Builder → Builder
  | [], st => st
  | o :: os, st => (elements os st).refer o

/-- `CreateVector` of offsets (RawDatagram.cpp:331-333). -/
def createVector (os : List Nat) (st : Builder) : Nat × Builder :=
  let st := (elements os (st.preAlign (os.length * 4) 4)).scalar 4 os.length
  (st.buf.length, st)

/-- A field added to a table: a scalar of `n` bytes, which is left out when it has the default value 0 (`AddElement`), or
an offset, which is left out when it is null (`AddOffset`) (Message.cpp:36-37, RawDatagram.cpp:335-345). -/
inductive Slot where
  | scalar (vo n v : Nat)
  | offset (vo o : Nat)

/-- Adding a field, noting where it went (`TrackField`; Message.cpp:36-37, RawDatagram.cpp:335-345). -/
def add (s : Slot) (p : Builder × List (Nat × Nat)) : Builder × List (Nat × Nat) :=
  match s with
  | .scalar vo n v =>
    if v = 0 then p
    else
      let st := p.1.scalar n v
      (st, (vo, st.buf.length) :: p.2)
  | .offset vo o =>
    if o = 0 then p
    else
      let st := p.1.refer o
      (st, (vo, st.buf.length) :: p.2)

/-- All fields of a table, in order (RawDatagram.cpp:335-345). -/
def addAll : List Slot → Builder × List (Nat × Nat) → Builder × List (Nat × Nat)
  | [], p => p
  | s :: ss, p => addAll ss (add s p)

/-- The number of entries of the vtable: as many as the highest field needs (`EndTable`; RawDatagram.cpp:335-345). -/
def entries : List (Nat × Nat) → Nat
  | [] => 0
  | (vo, _) :: fs => max ((vo - 2) / 2) (entries fs)

/-- The entry for a vtable offset: the distance of the field from the start `loc` of the table, 0 for a field left out
(`EndTable`; RawDatagram.cpp:335-345). -/
def entry (fs : List (Nat × Nat)) (loc vo : Nat) : Nat :=
  match fs.lookup vo with
  | some e => loc - e
  | none => 0

/-- The vtable of a table that starts at offset `loc` and whose first byte written had offset `start`
(`EndTable`; RawDatagram.cpp:335-345): its own size, the size of the table, the entries. -/
def vtable (fs : List (Nat × Nat)) (start loc : Nat) : Bytes :=
  put 2 (4 + 2 * entries fs) ++ put 2 (loc - start) ++
    (List.range (entries fs)).flatMap (fun i => put 2 (entry fs loc (4 + 2 * i)))

/-- `EndTable` (Message.cpp:36-37, RawDatagram.cpp:335-345): the offset to the vtable and, unless an equal one has been
written before, the vtable in front of it. -/
def endTable (start : Nat) (p : Builder × List (Nat × Nat)) : Nat × Builder :=
  let st := p.1.preAlign 0 4
  let loc := st.buf.length + 4
  let vt := vtable p.2 start loc
  match st.vtables.find? (fun o => vt.isPrefixOf (st.buf.drop (st.buf.length - o))) with
  | some o => (loc, st.push (put 4 (2 ^ 32 + o - loc)))
  | none => (loc, { (st.push (vt ++ put 4 vt.length)) with vtables := st.vtables ++ [loc + vt.length] })

/-- A table with these fields (Message.cpp:36-37, RawDatagram.cpp:335-345). -/
def table (ss : List Slot) (st : Builder) : Nat × Builder := endTable st.buf.length (addAll ss (st, []))

/-- `Finish` (Message.cpp:39) and `GetBufferPointer`/`GetSize` (Message.cpp:41). -/
def finish (o : Nat) (st : Builder) : Bytes := ((st.preAlign 4 st.minalign).refer o).buf

/-- The fields of `CreateFBDatagram` (RawDatagram.cpp:335-345) in the order in which the generated function adds them: by
decreasing size, and the last field first among those of the same size (schemas/FBDatagram.fbs:19-33). -/
def slots (dt vt : UInt8) (so : Nat) (i : Int32) (d : Dbl) (x : Bool) (lv kv cv : Nat) : List Slot :=
  [.scalar 12 8 (FB.wireDbl d).toNat, .offset 20 cv, .offset 18 kv, .offset 16 lv, .scalar 10 4 i.toUInt32.toNat, .offset 8 so,
    .scalar 14 1 x.toNat, .scalar 6 1 vt.toNat, .scalar 4 1 dt.toNat]

mutual
/-- `RawDatagram::SerializeToStructure` (RawDatagram.cpp:262-346) as far as the builder is concerned, for the content `Heap.serialize`
determines: the string if there is one, the elements, the keys and values in turn, the three vectors, the table. -/
def datagram : FB → Builder → Nat × Builder
  | .mk dt vt s i d x l k c, st0 =>
    let (so, st1) := match s with
      | some s => createString s st0
      | none => (0, st0)
    let (lo, st2) := items l st1
    let (ko, co, st3) := pairs (k.getD []) c st2
    let (lv, st4) := createVector lo st3
    let (kv, st5) := createVector ko st4
    let (cv, st6) := createVector co st5
    table (slots dt vt so i d x lv kv cv) st6
/-- The elements of a list (RawDatagram.cpp:310-313). -/
def items : Option (List FB) → Builder → List Nat × Builder
  | none, st => ([], st)
  | some l, st => itemsL l st
/-- The elements of a list, one after the other (RawDatagram.cpp:310-313). -/
def itemsL : List FB → Builder → List Nat × Builder
  | [], st => ([], st)
  | f :: fs, st =>
    let (o, st1) := datagram f st
    let (os, st2) := itemsL fs st1
    (o :: os, st2)
/-- The entries of a dictionary (RawDatagram.cpp:319-323). -/
def pairs : List Str → Option (List FB) → Builder → List Nat × List Nat × Builder
  | _, none, st => ([], [], st)
  | ks, some l, st => pairsL ks l st
/-- The entries of a dictionary, one after the other: the key, then the value (RawDatagram.cpp:319-323). -/
def pairsL : List Str → List FB → Builder → List Nat × List Nat × Builder
  | [], _, st => ([], [], st)
  | _ :: _, [], st => ([], [], st)
  | k :: ks, f :: fs, st =>
    let (ko, st1) := createString k st
    let (o, st2) := datagram f st1
    let (kos, os, st3) := pairsL ks fs st2
    (ko :: kos, o :: os, st3)
end

end Builder

/-- `Message::SerializeToBytes` (Message.cpp:28-42) for the content `Msg.serialize` determines. A field that is absent, which
the code never produces, is left out. -/
def write (f : FBM) : Bytes :=
  let (so, st1) := match f.sender with
    | some s => Builder.createString s .new
    | none => (0, .new)
  let (po, st2) := match f.topic with
    | some s => st1.createString s
    | none => (0, st1)
  let (d, st3) := match f.datagram with
    | some f => Builder.datagram f st2
    | none => (0, st2)
  let (m, st4) := Builder.table [.offset 8 d, .offset 6 po, .offset 4 so] st3
  Builder.finish m st4

/-- `Message::SerializeToBytes` (Message.cpp:28-42). -/
def serialize (m : Msg) : M Heap Bytes := do
  let f ← m.serialize
  pure (write f)

/-- The byte layout for the link plugin (Message.cpp:28-52). -/
def codec : Link.Codec where
  enc := write
  dec := fun b => match message b with
    | .ok f => some f
    | _ => none

end LP.Flat
