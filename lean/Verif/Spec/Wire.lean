import Verif.Spec.Read
import Verif.Model.Wire
import Verif.Model.Json
/-!
# Specification: what survives serialisation, what tables and JSON documents mean
-/
namespace LP

namespace Tree
mutual
/-- What remains of a document after it has been serialised and read back. -/
def wire : Tree → Tree
  | .empty => .empty
  | .value (.other _ _) => .empty
  | .value (.dbl d) => .value (.dbl (if Ieee.value d = some (.fin 0) then 0 else d))
  | .value v => .value v
  | .list [] => .empty
  | .list (t :: ts) => .list (wire t :: wireL ts)
  | .dict [] => .empty
  | .dict ((k, t) :: ds) => .dict ((k, wire t) :: wireD ds)
/-- Element by element. -/
def wireL : List Tree → List Tree
  | [] => []
  | t :: ts => wire t :: wireL ts
/-- Entry by entry. -/
def wireD : List (Str × Tree) → List (Str × Tree)
  | [] => []
  | (k, t) :: ds => (k, wire t) :: wireD ds
end
end Tree

/-- The document contains something that does not survive serialisation as an equal: a NaN, a value of a type other than
string, int, double, bool, or an empty container. -/
inductive Lossy : Tree → Prop where
  | nan {d : Dbl} : Ieee.value d = none → Lossy (.value (.dbl d))
  | other (n c : Nat) : Lossy (.value (.other n c))
  | emptyList : Lossy (.list [])
  | emptyDict : Lossy (.dict [])
  | list {t : Tree} {ts : List Tree} : t ∈ ts → Lossy t → Lossy (.list ts)
  | dict {k : Str} {t : Tree} {ds : List (Str × Tree)} : (k, t) ∈ ds → Lossy t → Lossy (.dict ds)

/-- What a table means. Unknown tags mean Empty; empty vectors mean Empty; of two vectors of different lengths only the
common part counts. Reading a table that lacks a needed string or vector is not covered: it is undefined. -/
inductive Means : FB → Tree → Prop where
  | str {s i d b l k c} : Means (.mk 1 0 (some s) i d b l k c) (.value (.str s))
  | int {s i d b l k c} : Means (.mk 1 1 s i d b l k c) (.value (.int i))
  | dbl {s i d b l k c} : Means (.mk 1 2 s i d b l k c) (.value (.dbl d))
  | bool {s i d b l k c} : Means (.mk 1 3 s i d b l k c) (.value (.bool b))
  | badValue {v s i d b l k c} : v ∉ [0, 1, 2, 3] → Means (.mk 1 v s i d b l k c) .empty
  | unknown {t v s i d b l k c} : t ∉ [1, 2, 3] → Means (.mk t v s i d b l k c) .empty
  | emptyList {v s i d b k c} : Means (.mk 2 v s i d b (some []) k c) .empty
  | list {v s i d b k c l ts} : l ≠ [] → l.length = ts.length → (∀ (i : Nat) f t, l[i]? = some f → ts[i]? = some t → Means f t) →
      Means (.mk 2 v s i d b (some l) k c) (.list ts)
  | emptyDict {v s i d b l k c} : k = [] ∨ c = [] → Means (.mk 3 v s i d b l (some k) (some c)) .empty
  | dict {v s i d b l k c} {ms : List (Str × Tree)} {ds : List (Str × Tree)} : k ≠ [] → c ≠ [] → ms.length = min k.length c.length →
      (∀ (i : Nat) kt, ms[i]? = some kt → k[i]? = some kt.1) →
      (∀ (i : Nat) kt f, ms[i]? = some kt → c[i]? = some f → Means f kt.2) →
      ds.Pairwise (fun e f => e.1 < f.1) →
      -- the last of several entries with the same key counts
      (∀ kt, kt ∈ ds ↔ ∃ l1 l2, ms = l1 ++ kt :: l2 ∧ ∀ e ∈ l2, e.1 ≠ kt.1) →
      Means (.mk 3 v s i d b l (some k) (some c)) (.dict ds)

/-- A table that lacks a string or vector which reading it needs, at any depth that is read. -/
inductive Broken : FB → Prop where
  | str {i d b l k c} : Broken (.mk 1 0 none i d b l k c)
  | list {v s i d b k c} : Broken (.mk 2 v s i d b none k c)
  | keys {v s i d b l c} : Broken (.mk 3 v s i d b l none c)
  | contents {v s i d b l k} : Broken (.mk 3 v s i d b l k none)
  | inList {v s i d b k c l f} : f ∈ l → Broken f → Broken (.mk 2 v s i d b (some l) k c)
  | inDict {v s i d b l k c f} : f ∈ c.take k.length → Broken f → Broken (.mk 3 v s i d b l (some k) (some c))

/-- What a JSON document means. -/
inductive JsonMeans : Json → Tree → Prop where
  | null : JsonMeans .null .empty
  | bool (b : Bool) : JsonMeans (.bool b) (.value (.bool b))
  | double (d : Dbl) : JsonMeans (.double d) (.value (.dbl d))
  | int {i : Int} {r : Int32} : r.toInt = max (-2 ^ 31) (min i (2 ^ 31 - 1)) → JsonMeans (.int i) (.value (.int r))
  | string {s r : Str} : (0 ∉ s ∧ r = s ∨ ∃ z, s = r ++ 0 :: z ∧ 0 ∉ r) → JsonMeans (.string s) (.value (.str r))
  | emptyArray : JsonMeans (.array []) .empty
  | array {js : List Json} {ts : List Tree} : js ≠ [] → js.length = ts.length →
      (∀ (i : Nat) j t, js[i]? = some j → ts[i]? = some t → JsonMeans j t) → JsonMeans (.array js) (.list ts)
  | emptyObject : JsonMeans (.object []) .empty
  | object {ms : List (Str × Json)} {ns ds : List (Str × Tree)} : ms ≠ [] → ms.length = ns.length →
      (∀ (i : Nat) m n, ms[i]? = some m → ns[i]? = some n → 0 ∉ m.1 ∧ n.1 = m.1 ∨ ∃ z, m.1 = n.1 ++ 0 :: z ∧ 0 ∉ n.1) →
      (∀ (i : Nat) m n, ms[i]? = some m → ns[i]? = some n → JsonMeans m.2 n.2) →
      ds.Pairwise (fun e f => e.1 < f.1) →
      (∀ kt, kt ∈ ds ↔ ∃ l1 l2, ns = l1 ++ kt :: l2 ∧ ∀ e ∈ l2, e.1 ≠ kt.1) →
      JsonMeans (.object ms) (.dict ds)

/-- The document contains an empty list or an empty dictionary at some depth. -/
inductive HasEmptyContainer : Tree → Prop where
  | emptyList : HasEmptyContainer (.list [])
  | emptyDict : HasEmptyContainer (.dict [])
  | list {t : Tree} {ts : List Tree} : t ∈ ts → HasEmptyContainer t → HasEmptyContainer (.list ts)
  | dict {k : Str} {t : Tree} {ds : List (Str × Tree)} : (k, t) ∈ ds → HasEmptyContainer t → HasEmptyContainer (.dict ds)

end LP
