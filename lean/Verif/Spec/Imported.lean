import Verif.Spec.Wire
/-! # Specification: JSON documents with a NaN, and what the JSON library is asked for -/
namespace LP

/-- A number in the document is a NaN (json-c reads the word `NaN` as one). -/
inductive JsonNaN : Json → Prop where
  | here {d : Dbl} : Ieee.value d = none → JsonNaN (.double d)
  | array {j : Json} {js : List Json} : j ∈ js → JsonNaN j → JsonNaN (.array js)
  | object {k : Str} {j : Json} {ms : List (Str × Json)} : (k, j) ∈ ms → JsonNaN j → JsonNaN (.object ms)

/-- How many blocks importing a text takes from the library: one to parse with, and one for the document unless there is
none or it is the word `null`. -/
def taken (tok : Str → Option Json) (text : Str) : Nat :=
  match tok text with
  | none => 1
  | some .null => 1
  | some _ => 2

end LP
