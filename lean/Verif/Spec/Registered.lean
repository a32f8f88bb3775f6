import Verif.Model.BusConc
/-!
# Which subscribers and publishers a history made, and where

Only the calls are looked at. Subscribers are numbered in the order in which they were created, publishers likewise.
-/
namespace LP.Bus

/-- The buses on which subscribers were created, in order. -/
def subsMade (as : List Act) : List Nat := as.filterMap (fun a => match a with | .createSub b _ _ => some b | _ => none)

/-- The buses on which publishers were created, in order. -/
def pubsMade (as : List Act) : List Nat := as.filterMap (fun a => match a with | .createPub b _ => some b | _ => none)

end LP.Bus
