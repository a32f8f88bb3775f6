import Verif.Model.Str
/-!
# UUIDs (include/lamppost/utilities/Uuid.h, src/lamppost/utilities/Uuid.cpp)
-/
namespace LP.Uuid

/-- A lower-case hex digit, for `%x` (Uuid.h:36). -/
def hexDigit (n : Nat) : UInt8 := if n < 10 then (48 + n).toUInt8 else (87 + n).toUInt8

/-- `%x` (Uuid.h:36): no padding. -/
def hex (n : Nat) : Str :=
  if n < 16 then [hexDigit n] else hex (n / 16) ++ [hexDigit (n % 16)]
termination_by n

/-- The eight results of `dist(rng)` in the order in which they appear in the argument list (Uuid.h:37-41). The order in
which the calls are evaluated is unspecified in C++, so any of them may come from any draw; the statements quantify over
all values. -/
structure Draws where
  a : UInt32
  b : UInt32
  c : UInt32
  d : UInt32
  e : UInt32
  f : UInt32
  g : UInt32
  h : UInt32
  deriving DecidableEq

/-- What `std::uniform_int_distribution<unsigned int> dist(1, -1)` can return (Uuid.h:33): `-1` is converted to
0xffffffff. -/
def Draws.possible (x : Draws) : Prop := 1 ≤ x.a ∧ 1 ≤ x.b ∧ 1 ≤ x.c ∧ 1 ≤ x.d ∧ 1 ≤ x.e ∧ 1 ≤ x.f ∧ 1 ≤ x.g ∧ 1 ≤ x.h

instance (x : Draws) : Decidable x.possible := by unfold Draws.possible; infer_instance

/-- The formatted text (Uuid.h:36-41). -/
def format (x : Draws) : Str :=
  hex x.a.toNat ++ hex x.b.toNat ++ [45] ++ hex x.c.toNat ++ [45] ++ hex ((x.d &&& 0x0fff) ||| 0x4000).toNat ++ [45] ++
    hex (x.e % 0x3fff + 0x8000).toNat ++ [45] ++ hex x.f.toNat ++ hex x.g.toNat ++ hex x.h.toNat

/-- A `Uuid` object (Uuid.h:20-21). -/
structure Uuid where
  isEmpty : Bool
  content : Str
  deriving DecidableEq

/-- `Uuid::Uuid()` (Uuid.cpp:8-11). -/
def empty : Uuid := ⟨true, []⟩

/-- `CreateUuid` (Uuid.h:27-48): `snprintf` writes at most 127 characters and a terminator, `std::string(buffer)` reads
up to the terminator. -/
def create (x : Draws) : Uuid := ⟨false, ((format x).take 127).takeWhile (fun c => c != 0)⟩

/-- `operator==` (Uuid.h:63-67). -/
def Uuid.eq (u v : Uuid) : Bool := (u.isEmpty && v.isEmpty) || (!u.isEmpty && !v.isEmpty && u.content == v.content)

end LP.Uuid
