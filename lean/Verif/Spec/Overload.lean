import Verif.Model.Overload
import Verif.Spec.Client
/-!
# Specification: what a value given to a Datagram becomes
-/
namespace LP.Overload

/-- The document after `x = e`; `none` for what does not compile (and for the null `shared_ptr<DataBase>`, see C115). -/
def Arg.assigned : Arg → Option Tree
  | .bool b => some (.value (.bool b))
  | .char i | .short i | .enum i | .int i => some (.value (.int i))
  | .float _ d | .double d => some (.value (.dbl d))
  | .string s => some (.value (.str s))
  | .charPtr _ _ => some (.value (.bool true))
  | .pointer a => some (.value (.bool (decide (a ≠ 0))))
  | .data v => v.map .value
  | .kind t => some (Tree.ofType t)
  | .raw a => some (.value (.other 12 a))
  | .object n c => some (.value (.other (14 + n) c))
  | .unsigned _ | .long _ | .unsignedLong _ | .nullPtr | .typedData _ => none

/-- The document of a new `Datagram x(e)`; `none` for what does not compile, for handles to existing objects and for the
null `shared_ptr<DataBase>`. -/
def Arg.declared : Arg → Option Tree
  | .bool b => some (.value (.bool b))
  | .int i => some (.value (.int i))
  | .double d => some (.value (.dbl d))
  | .string s => some (.value (.str s))
  | .data v => v.map .value
  | .kind t => some (Tree.ofType t)
  | .nullPtr | .raw _ => none
  | .char i => some (.value (.other 0 i.toBitVec.toNat))
  | .short i => some (.value (.other 1 i.toBitVec.toNat))
  | .enum i => some (.value (.other 2 i.toBitVec.toNat))
  | .unsigned c => some (.value (.other 3 c))
  | .long c => some (.value (.other 4 c))
  | .unsignedLong c => some (.value (.other 5 c))
  | .float c _ => some (.value (.other 6 c))
  | .charPtr _ a => some (.value (.other 7 a))
  | .pointer a => some (.value (.other 8 a))
  | .typedData c => some (.value (.other 11 c))
  | .object n c => some (.value (.other (14 + n) c))

/-- The assignment compiles. -/
def Arg.compiles : Arg → Prop
  | .unsigned _ | .long _ | .unsignedLong _ | .nullPtr | .typedData _ => False
  | _ => True

end LP.Overload
