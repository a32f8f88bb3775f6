import Verif.Spec.Client
import Verif.Spec.Read
import Verif.Model.Exceptions
/-!
# Vocabulary: why a statement may throw
-/
namespace LP

/-- The variable and the chain of `operator[]` a statement evaluates. -/
def Stmt.chain : Stmt → Option (Nat × List Sel)
  | .decl .. | .declVal .. | .declCopy .. => none
  | .touch x p | .setVal x p _ | .addVal x p _ | .addNew x p _ | .removeKey x p _ | .removeIdx x p _ | .clear x p => some (x, p)
  | .assignInto x p _ => some (x, p)
  | .assignFrom _ y q => some (y, q)

/-- The variables a statement reads or writes through. -/
def Stmt.uses : Stmt → List Nat
  | .decl .. | .declVal .. => []
  | .declCopy _ y => [y]
  | .touch x _ | .setVal x _ _ | .addVal x _ _ | .addNew x _ _ | .removeKey x _ _ | .removeIdx x _ _ | .clear x _ => [x]
  | .assignInto x _ y => [x, y]
  | .assignFrom x y _ => [x, y]

/-- The reading call `q` on `y[p]` would return `a`. -/
def Sees (s : DState) (y : Nat) (p : List Sel) (q : Query) (a : Ans) : Prop :=
  ∀ pd po, observeAt pd po q p s y = some (.ok a)

/-- There is no element `i` in `y[p]`: it is no list, or its count does not exceed the index. -/
def NoElement (s : DState) (y : Nat) (p : List Sel) (i : BitVec 32) : Prop :=
  (∃ ty, Sees s y p .getType (.ty ty) ∧ ty ≠ .list) ∨
  (Sees s y p .getType (.ty .list) ∧ ∃ n, Sees s y p .getCount (.count n) ∧ n ≤ i)

/-- `Reason s c e`: in state `s` the exception `e` is a true description of what is wrong with statement `c`. -/
inductive Reason (s : DState) : Stmt → Exn → Prop where
  | noElement {c y p i r e} : c.chain = some (y, p ++ .idx i :: r) → NoElement s y p i → e.cls = .indexOutOfBounds →
      e.getIndex = some i.toInt → Reason s c e
  | noElementToRemove {x p i e} : Sees s x p .getType (.ty .list) → NoElement s x p i → e.cls = .indexOutOfBounds →
      e.getIndex = some i.toInt → Reason s (.removeIdx x p i) e
  | noKeyToRemove {x p k e} : Sees s x p .getType (.ty .dict) → Sees s x p (.keyExists k) (.bool false) →
      e.cls = .keyNotFound → e.getKey = some k → Reason s (.removeKey x p k) e
  | notADictionary {x p k ty e} : Sees s x p .getType (.ty ty) → ty ≠ .dict → e.cls = .invalidOperation →
      Reason s (.removeKey x p k) e
  | notAList {x p i ty e} : Sees s x p .getType (.ty ty) → ty ≠ .list → e.cls = .invalidOperation →
      Reason s (.removeIdx x p i) e
  | notAContainer {x p ty e} : Sees s x p .getType (.ty ty) → ty ≠ .list → ty ≠ .dict → e.cls = .invalidOperation →
      Reason s (.clear x p) e

/-- The lists on the way of the chain have fewer than 2^32 elements, so that their counts are not truncated. -/
def Countable (s : DState) (y : Nat) (p : List Sel) : Prop :=
  ∀ p1 r, p = p1 ++ r → ∀ t, Holds s y t → (Tree.subAt p1 t).asList.length < 2 ^ 32

end LP
