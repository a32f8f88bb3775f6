/-!
# Byte strings

`std::string` as used throughout /repo is a sequence of bytes. Only the operations the code calls are
modelled here; each definition names a call site.
-/
namespace LP

/-- A `std::string` (e.g. the keys of `mDictionary`, include/lamppost/messages/RawDatagram.h:40).
Simplification: no capacity or allocation failure. -/
abbrev Str := List UInt8

/-- A C++ string literal such as `"/request"` (include/lamppost/bus/Bus.h:122-172). All literals in /repo
are ASCII, for which the code point is the byte. -/
def bs (x : String) : Str := x.toList.map (fun c => c.toNat.toUInt8)

/-- The byte of `'/'`, used as separator in RawDatagram.h:192-241, Message.cpp:59-75, Filesystem.cpp:172-239. -/
def slash : UInt8 := 47

/-- The byte of `'.'`, used in Filesystem.cpp:94-117 and 223-239. -/
def dot : UInt8 := 46

/-- `std::string::operator<` as used by `std::map<std::string, _>` (RawDatagram.h:40, Bus.h:41):
`char_traits<char>::compare` compares bytes as unsigned char, a proper prefix is smaller. -/
def Str.lt : Str → Str → Bool
  | [], [] => false
  | [], _ :: _ => true
  | _ :: _, [] => false
  | a :: s, b :: t => if a < b then true else if b < a then false else Str.lt s t

/-- `std::string::find(c)` / `find_first_of(c)` for one character (RawDatagram.h:192-241): offset of the first
occurrence, `none` for `npos`. -/
def Str.find (c : UInt8) : Str → Option Nat
  | [] => none
  | x :: s => if x = c then some 0 else (Str.find c s).map (· + 1)

/-- `std::string::find_last_of(c)` for one character (Filesystem.cpp:187-239): offset of the last occurrence. -/
def Str.rfind (c : UInt8) : Str → Option Nat
  | [] => none
  | x :: s => match Str.rfind c s with
    | some i => some (i + 1)
    | none => if x = c then some 0 else none

/-- `std::string::substr(pos)`; `none` is the `std::out_of_range` thrown when `pos > size()`
(RawDatagram.h:192-241, Message.cpp:64-70, Filesystem.cpp:187-239). -/
def Str.substrFrom (s : Str) (pos : Nat) : Option Str :=
  if pos ≤ s.length then some (s.drop pos) else none

/-- `std::string::substr(0, n)`; position 0 never throws, `n` is clamped to the size
(RawDatagram.h:192-241, Message.cpp:72-75, PluginManager.cpp:69-162). -/
def Str.substr0 (s : Str) (n : Nat) : Str := s.take n

/-- One decimal digit, for `std::to_string` (PluginTemplate.cpp:24-39). -/
def digit (n : Nat) : UInt8 := (48 + n).toUInt8

/-- Decimal rendering of a non-negative number: `std::to_string(int)` (PluginTemplate.cpp:24-39) and
`operator<<` for a non-negative `int` (Data.h:46-49). -/
def natToStr (n : Nat) : Str :=
  if n < 10 then [digit n] else natToStr (n / 10) ++ [digit (n % 10)]
termination_by n

/-- Decimal rendering of a signed number: `std::stringstream << int` (Data.h:46-49). -/
def intToStr (i : Int) : Str :=
  if i < 0 then 45 :: natToStr i.natAbs else natToStr i.natAbs

end LP
