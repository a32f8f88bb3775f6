import Verif.Model.Out
/-!
# RawBytes over a heap of character arrays
-/
namespace LP
namespace RawBytes

/-- A character array: live with its bytes (`none` is an indeterminate byte), or already deleted (the arrays of
RawBytes.cpp:22, 30, 48, 54, 58). -/
inductive Block where
  | live (bytes : List (Option UInt8))
  | freed
  deriving DecidableEq

/-- The arrays allocated so far; addresses are never reused, so a stale pointer stays recognisable (RawBytes.cpp:22,
48, 54). -/
structure Mem where
  next : Nat
  block : Nat → Block

/-- `class RawBytes` (RawBytes.h:14-29): `mContent` (null is `none`) and `mSize`. -/
structure Obj where
  content : Option Nat
  size : Nat
  deriving DecidableEq

/-- All arrays and all RawBytes objects in existence (RawBytes.h:14-29). -/
structure World where
  mem : Mem
  obj : Nat → Option Obj

/-- Nothing allocated, no objects (no code: before any of RawBytes.cpp:8-24). -/
def init : World := ⟨⟨0, fun _ => .freed⟩, fun _ => none⟩

/-- Set one array (no code of its own: used for RawBytes.cpp:22-58). -/
def Mem.set (m : Mem) (p : Nat) (b : Block) : Mem := { m with block := fun q => if q = p then b else m.block q }

/-- `new char[size]` (RawBytes.cpp:22, 48, 54). Simplification: allocation never fails and sizes do not wrap around. -/
def new (size : Nat) : M Mem Nat := fun m => .ok m.next { (m.set m.next (.live (List.replicate size none))) with next := m.next + 1 }

/-- `delete[]` (RawBytes.cpp:30, 58): deleting twice is undefined. -/
def delete (p : Nat) : M Mem Unit := fun m =>
  match m.block p with
  | .live _ => .ok () (m.set p .freed)
  | .freed => .ub

/-- Reading `len` bytes at `p + off` (the source side of `memcpy`, RawBytes.cpp:23, 49, 55, 56); reading deleted memory or
past the end is undefined. -/
def read (p off len : Nat) : M Mem (List (Option UInt8)) := fun m =>
  match m.block p with
  | .live b => if off + len ≤ b.length then .ok ((b.drop off).take len) m else .ub
  | .freed => .ub

/-- Writing bytes at `p + off` (the target side of `memcpy`, same lines) (RawBytes.cpp:23, 49, 55, 56). -/
def write (p off : Nat) (bytes : List (Option UInt8)) : M Mem Unit := fun m =>
  match m.block p with
  | .live b => if off + bytes.length ≤ b.length then .ok () (m.set p (.live (b.take off ++ bytes ++ b.drop (off + bytes.length)))) else .ub
  | .freed => .ub

/-- Where appended bytes come from: memory of the caller, or a range of the content of a RawBytes (found with
`GetContent`, RawBytes.cpp:34-37). -/
inductive Src where
  | ext (bytes : List UInt8)
  | ptr (p off len : Nat)

/-- How many bytes (RawBytes.cpp:14, 44). -/
def Src.size : Src → Nat
  | .ext b => b.length
  | .ptr _ _ len => len

/-- The bytes read from the source by `memcpy` (lines as for `read`) (RawBytes.cpp:23, 49, 55, 56). -/
def Src.read : Src → M Mem (List (Option UInt8))
  | .ext b => pure (b.map some)
  | .ptr p off len => RawBytes.read p off len

/-- `RawBytes(void* content, std::size_t size)` with a non-null pointer (RawBytes.cpp:14-24). -/
def ctor (src : Src) : M Mem Obj := do
  let p ← new src.size
  let b ← src.read
  write p 0 b
  pure ⟨some p, src.size⟩

/-- `Append` (RawBytes.cpp:44-62). -/
def append (o : Obj) (src : Src) : M Mem Obj :=
  match o.content with
  | none => do
    let p ← new src.size
    let b ← src.read
    write p 0 b
    pure ⟨some p, src.size⟩
  | some c => do
    let swap ← new (o.size + src.size)
    let old ← read c 0 o.size
    write swap 0 old
    let b ← src.read
    write swap o.size b
    delete c
    pure ⟨some swap, o.size + src.size⟩

/-- The destructor (RawBytes.cpp:26-32). -/
def dtor (o : Obj) : M Mem Unit :=
  match o.content with
  | none => pure ()
  | some c => delete c

/-- A statement of a client. `x`, `y` name RawBytes objects (RawBytes.h:21-28). -/
inductive Op where
  | make (x : Nat)                            -- RawBytes x;                              (RawBytes.cpp:8-12)
  | makeNull (x size : Nat)                   -- RawBytes x(nullptr, size);               (RawBytes.cpp:17-20)
  | makeExt (x : Nat) (bytes : List UInt8)    -- RawBytes x(buffer, size);
  | makeFrom (x y : Nat)                      -- RawBytes x(y.GetContent(), y.GetSize()); (cast away const)
  | appendExt (x : Nat) (bytes : List UInt8)  -- x.Append(buffer, size);
  | appendFrom (x y off len : Nat)            -- x.Append((const char*)y.GetContent() + off, len);
  | copy (x y : Nat)                          -- RawBytes x(y); the implicit copy constructor (RawBytes.h:14-29)
  | destroy (x : Nat)                         -- end of the lifetime of x

/-- Run a computation on the arrays (no code of its own: RawBytes.cpp:22-58). -/
def onMem {α : Type} (m : M Mem α) : M World α := fun w =>
  match m w.mem with
  | .ok a mem => .ok a ⟨mem, w.obj⟩
  | .throw e mem => .throw e ⟨mem, w.obj⟩
  | .ub => .ub
  | .fuel => .fuel

/-- Set the object a name stands for (no code of its own: RawBytes.h:21-23). -/
def bind (x : Nat) (o : Option Obj) : M World Unit := M.modify fun w => { w with obj := fun y => if y = x then o else w.obj y }

/-- The effect of a statement (see `Op` for the source lines). Statements about objects that do not exist, and
constructions of objects that already exist, do nothing (they correspond to no C++ statement) (RawBytes.cpp:8-62). -/
def Op.run : Op → M World Unit
  | .make x => fun w => match w.obj x with
    | none => bind x (some ⟨none, 0⟩) w
    | some _ => .ok () w
  | .makeNull x _ => fun w => match w.obj x with
    | none => .throw (.argumentNull (bs "content")) w
    | some _ => .ok () w
  | .makeExt x b => fun w => match w.obj x with
    | none => (onMem (ctor (.ext b)) >>= fun o => bind x (some o)) w
    | some _ => .ok () w
  | .makeFrom x y => fun w => match w.obj x, w.obj y with
    | none, some o => (match o.content with
      | none => .throw (.argumentNull (bs "content")) w
      | some p => (onMem (ctor (.ptr p 0 o.size)) >>= fun o => bind x (some o)) w)
    | _, _ => .ok () w
  | .appendExt x b => fun w => match w.obj x with
    | some o => (onMem (append o (.ext b)) >>= fun o => bind x (some o)) w
    | none => .ok () w
  | .appendFrom x y off len => fun w => match w.obj x, w.obj y with
    | some o, some q => (match q.content with
      | none => .ub
      | some p => (onMem (append o (.ptr p off len)) >>= fun o => bind x (some o)) w)
    | _, _ => .ok () w
  | .copy x y => fun w => match w.obj x, w.obj y with
    | none, some o => bind x (some o) w
    | _, _ => .ok () w
  | .destroy x => fun w => match w.obj x with
    | some o => (onMem (dtor o) >>= fun _ => bind x none) w
    | none => .ok () w

/-- Run a history; an exception ends its statement only. `none` is undefined behaviour (no code of its own: a client
of RawBytes.h:14-29). -/
def runAll : List Op → World → Option World
  | [], w => some w
  | c :: cs, w =>
    match c.run w with
    | .ok _ w' => runAll cs w'
    | .throw _ w' => runAll cs w'
    | .ub => none
    | .fuel => none

/-- What a client reads through `GetContent` and `GetSize` (RawBytes.cpp:34-42): `none` is undefined behaviour. -/
def observe (w : World) (o : Obj) : Option (List (Option UInt8)) :=
  match o.content with
  | none => some []
  | some p => match read p 0 o.size w.mem with
    | .ok b _ => some b
    | _ => none

end RawBytes
end LP
