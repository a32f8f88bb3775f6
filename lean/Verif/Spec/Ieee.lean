import Verif.Model.Val
/-!
# Specification: the number a double stands for (IEEE-754 binary64)
-/
namespace LP.Ieee

/-- The number a bit pattern stands for: an infinity, or `n / 2^1074`. -/
inductive Number where
  | inf (negative : Bool)
  | fin (n : Int)
  deriving DecidableEq

/-- The exponent field. -/
def exponent (d : Dbl) : Nat := d.toNat / 2 ^ 52 % 2 ^ 11

/-- The fraction field. -/
def fraction (d : Dbl) : Nat := d.toNat % 2 ^ 52

/-- The sign. -/
def negative (d : Dbl) : Bool := decide (2 ^ 63 ≤ d.toNat)

/-- Its magnitude in units of `2^-1074`, for a finite number: subnormal or normal. -/
def units (d : Dbl) : Nat := if exponent d = 0 then fraction d else (2 ^ 52 + fraction d) * 2 ^ (exponent d - 1)

/-- The number a bit pattern stands for; `none` for a NaN. -/
def value (d : Dbl) : Option Number :=
  if exponent d = 2047 then if fraction d = 0 then some (.inf (negative d)) else none
  else some (.fin (if negative d then - (units d : Int) else units d))

end LP.Ieee
