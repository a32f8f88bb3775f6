import Verif.Model.Str
/-!
# Values held by a datagram (`Data<T>` behind `shared_ptr<DataBase>`)
-/
namespace LP

/-- A C++ `double` as its 64-bit IEEE-754 pattern (Data.h:15-50 with `DataType = double`). -/
abbrev Dbl := BitVec 64

namespace Dbl

/-- Magnitude bits (everything except the sign) (no code: part of `double ==`, Data.h:40). -/
def mag (d : Dbl) : BitVec 63 := d.setWidth 63

/-- IEEE-754 NaN: exponent all ones and non-zero mantissa, i.e. magnitude above that of infinity (no code: part of
`double ==`, Data.h:40). -/
def isNaN (d : Dbl) : Bool := (0x7ff0000000000000#63).ult (mag d)

/-- IEEE-754 zero of either sign (no code: part of `double ==`, Data.h:40). -/
def isZero (d : Dbl) : Bool := mag d == 0#63

/-- C++ `==` on doubles, as used by `Data<double>::Equals` (Data.h:33-44): false if either is NaN, the two
zeros are equal, otherwise the bit patterns decide. -/
def feq (a b : Dbl) : Bool :=
  !isNaN a && !isNaN b && (a == b || (isZero a && isZero b))

end Dbl

/-- The dynamic C++ type of a stored value: the `T` of the `Data<T>` behind `mValue` (RawDatagram.h:103-122).
`other n` stands for any further type a user instantiates the template with (float, long, user classes, ...). -/
inductive VTy where
  | str | int | dbl | bool | other (n : Nat)
  deriving DecidableEq, Repr

/-- A stored value `Data<T>` (Data.h:15-50). For `other` types the content is an opaque code whose equality
stands for the type's own `operator==` (simplification: a user type's `==` is assumed to be an equality on codes).
`Data` objects are never mutated after construction, so sharing them is unobservable and they are modelled by
value. -/
inductive Val where
  | str (s : Str)
  | int (i : Int32)
  | dbl (d : Dbl)
  | bool (b : Bool)
  | other (ty : Nat) (code : Nat)
  deriving DecidableEq, Repr

namespace Val

/-- The dynamic type, the subject of `std::dynamic_pointer_cast<Data<T>>` (RawDatagram.h:103-122). -/
def ty : Val → VTy
  | str _ => .str
  | int _ => .int
  | dbl _ => .dbl
  | bool _ => .bool
  | other n _ => .other n

/-- `Data<T>::Equals(other)` (Data.h:33-44): false if the dynamic types differ, else `==` of the contents. -/
def equals : Val → Val → Bool
  | str a, str b => a == b
  | int a, int b => a == b
  | dbl a, dbl b => Dbl.feq a b
  | bool a, bool b => a == b
  | other n a, other m b => n == m && a == b
  | _, _ => false

/-- How `operator<<` renders a value (Data.h:46-49, RawDatagram.h:124-190): strings in quotes without escaping,
`int` in decimal, `bool` as 1/0 (no `boolalpha`). Rendering of doubles and foreign types is a parameter. -/
def print (pd : Dbl → Str) (po : Nat → Nat → Str) : Val → Str
  | str s => 34 :: s ++ [34]
  | int i => intToStr i.toInt
  | dbl d => pd d
  | bool b => if b then [49] else [48]
  | other n c => po n c

end Val
end LP
