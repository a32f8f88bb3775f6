import Verif.Lemma.Wire
import Verif.Spec.Sent
/-! # The tables of a document, as a function of the document -/
namespace LP.Flat
open Heap Tree

mutual
/-- The tables of a document. -/
def tables : Tree → FB
  | .empty => .mk 0 0 none 0 0 false (some []) (some []) (some [])
  | .value (.str s) => .mk 1 0 (some s) 0 0 false (some []) (some []) (some [])
  | .value (.int i) => .mk 1 1 none i 0 false (some []) (some []) (some [])
  | .value (.dbl d) => .mk 1 2 none 0 (FB.wireDbl d) false (some []) (some []) (some [])
  | .value (.bool b) => .mk 1 3 none 0 0 b (some []) (some []) (some [])
  | .value (.other _ _) => .mk 0 0 none 0 0 false (some []) (some []) (some [])
  | .list ts => .mk 2 0 none 0 0 false (some (tablesL ts)) (some []) (some [])
  | .dict ds => .mk 3 0 none 0 0 false (some []) (some (keysD ds)) (some (tablesD ds))
/-- Of all elements. -/
def tablesL : List Tree → List FB
  | [] => []
  | t :: ts => tables t :: tablesL ts
/-- Of all entries. -/
def tablesD : List (Str × Tree) → List FB
  | [] => []
  | (_, t) :: ds => tables t :: tablesD ds
/-- The keys of all entries. -/
def keysD : List (Str × Tree) → List Str
  | [] => []
  | (k, _) :: ds => k :: keysD ds
end

theorem tablesL_eq (ts : List Tree) : tablesL ts = ts.map tables := by
  induction ts with
  | nil => simp [tablesL]
  | cons t ts ih => simp [tablesL, ih]
theorem tablesD_eq (ds : List (Str × Tree)) : tablesD ds = ds.map (fun d => tables d.2) := by
  induction ds with
  | nil => simp [tablesD]
  | cons d ds ih => obtain ⟨k, t⟩ := d; simp [tablesD, ih]
theorem keysD_eq (ds : List (Str × Tree)) : keysD ds = ds.map Prod.fst := by
  induction ds with
  | nil => simp [keysD]
  | cons d ds ih => obtain ⟨k, t⟩ := d; simp [keysD, ih]

theorem serialize_tables {h : Heap} {S : Nat → Prop} : ∀ (t : Tree) (n : Nat) (a : Nat), t.depth ≤ n → Rep h S t a →
    Heap.serialize n a h = .ok (tables t) h := by
  intro t
  induction t using Tree.ind with
  | empty =>
    intro n a hd hr
    obtain ⟨n, rfl⟩ : ∃ m, n = m + 1 := ⟨n - 1, by simp only [Tree.depth] at hd; omega⟩
    simp [Heap.serialize, hr.2, tables]
  | value v =>
    intro n a hd hr
    obtain ⟨n, rfl⟩ : ∃ m, n = m + 1 := ⟨n - 1, by simp only [Tree.depth] at hd; omega⟩
    have hn := hr.2
    have hg := on_getVal hn
    cases v <;> simp only [Val.ty] at hg <;> simp [Heap.serialize, hn, Node.isOfType, Val.ty, hg, tables]
  | list ts ih =>
    intro n a hd hr
    obtain ⟨n, rfl⟩ : ∃ m, n = m + 1 := ⟨n - 1, by simp only [Tree.depth] at hd; omega⟩
    simp only [Tree.depth] at hd
    obtain ⟨_, ps, hn, hl⟩ := hr
    rw [RepL_iff] at hl
    have hmap := mapM_ok (h := h) (fun (p : Ptr) => deref p >>= Heap.serialize n) ps (tablesL ts) (by simp [tablesL_eq, hl.1]) (by
      intro i h1 h2
      have hi : i < ts.length := by rw [← hl.1]; exact h1
      obtain ⟨b, hb, hrb⟩ := hl.2 i hi h1
      have hm := List.getElem_mem hi
      simp only [tablesL_eq, List.getElem_map]
      rw [hb, M.bind_run, deref_some]
      exact ih _ hm n b (by have := Tree.depth_mem_list hm; omega) hrb)
    simp only [Heap.serialize, M.bind_run, M.get_run, hn, tables]
    rw [hmap]; rfl
  | dict ds ih =>
    intro n a hd hr
    obtain ⟨n, rfl⟩ : ∃ m, n = m + 1 := ⟨n - 1, by simp only [Tree.depth] at hd; omega⟩
    simp only [Tree.depth] at hd
    obtain ⟨_, d, hn, hs, hl⟩ := hr
    rw [RepD_iff, RepL_iff] at hl
    simp only [List.length_map] at hl
    have hmap := mapM_ok (h := h) (fun (kp : Str × Ptr) => deref kp.2 >>= Heap.serialize n) d (tablesD ds) (by simp [tablesD_eq, hl.2.1]) (by
      intro i h1 h2
      have hi : i < ds.length := by rw [← hl.2.1]; exact h1
      obtain ⟨b, hb, hrb⟩ := hl.2.2 i hi h1
      simp only [List.getElem_map] at hb hrb
      have hm := List.getElem_mem hi
      simp only [tablesD_eq, List.getElem_map]
      rw [hb, M.bind_run, deref_some]
      exact ih _ hm n b (by have := Tree.depth_mem_dict hm; omega) hrb)
    simp only [Heap.serialize, M.bind_run, M.get_run, hn, tables]
    rw [hmap]
    simp [keysD_eq, hl.1]

theorem wireDbl_twice (d : Dbl) : FB.wireDbl (FB.wireDbl d) = FB.wireDbl d := by
  unfold FB.wireDbl
  split
  · simp
  · simp_all

mutual
theorem tables_sent : ∀ t : Tree, tables t.sent = tables t
  | .empty => by simp [sent]
  | .value (.str _) => by simp [sent]
  | .value (.int _) => by simp [sent]
  | .value (.dbl d) => by
    simp only [sent, ← wireDbl_eq, tables, wireDbl_twice]
  | .value (.bool _) => by simp [sent]
  | .value (.other _ _) => by simp [sent, tables]
  | .list ts => by simp only [sent, tables, tablesL_sent ts]
  | .dict ds => by simp only [sent, tables, (tablesD_sent ds).1, (tablesD_sent ds).2]
theorem tablesL_sent : ∀ ts : List Tree, tablesL (sentL ts) = tablesL ts
  | [] => by simp [sentL]
  | t :: ts => by simp only [sentL, tablesL, tables_sent t, tablesL_sent ts]
theorem tablesD_sent : ∀ ds : List (Str × Tree), tablesD (sentD ds) = tablesD ds ∧ keysD (sentD ds) = keysD ds
  | [] => by simp [sentD]
  | (k, t) :: ds => by simp only [sentD, tablesD, keysD, tables_sent t, (tablesD_sent ds).1, (tablesD_sent ds).2, and_self]
end

mutual
theorem sent_of_tables : ∀ t u : Tree, tables t = tables u → t.sent = u.sent
  | .empty, u => by
    cases u with
    | empty => simp
    | value v => cases v <;> simp [tables, sent]
    | list us => simp [tables]
    | dict us => simp [tables]
  | .value v, u => by
    cases u with
    | empty => cases v <;> simp [tables, sent]
    | value w => cases v <;> cases w <;> simp [tables, sent, wireDbl_eq]
    | list us => cases v <;> simp [tables]
    | dict us => cases v <;> simp [tables]
  | .list ts, u => by
    cases u with
    | list us =>
      intro h
      simp only [tables, FB.mk.injEq, true_and, Option.some.injEq, and_true] at h
      simp only [sent, sent_of_tablesL ts us h]
    | value v => cases v <;> simp [tables]
    | _ => simp [tables]
  | .dict ds, u => by
    cases u with
    | dict us =>
      intro h
      simp only [tables, FB.mk.injEq, true_and, Option.some.injEq, and_true] at h
      simp only [sent, sent_of_tablesD ds us h.1 h.2]
    | value v => cases v <;> simp [tables]
    | _ => simp [tables]
theorem sent_of_tablesL : ∀ ts us : List Tree, tablesL ts = tablesL us → sentL ts = sentL us
  | [], us => by cases us <;> simp [tablesL]
  | t :: ts, us => by
    cases us with
    | nil => simp [tablesL]
    | cons u us =>
      intro h
      simp only [tablesL, List.cons.injEq] at h
      simp only [sentL, sent_of_tables t u h.1, sent_of_tablesL ts us h.2]
theorem sent_of_tablesD : ∀ ds es : List (Str × Tree), keysD ds = keysD es → tablesD ds = tablesD es → sentD ds = sentD es
  | [], es => by cases es <;> simp [tablesD]
  | (k, t) :: ds, es => by
    cases es with
    | nil => simp [tablesD]
    | cons e es =>
      obtain ⟨l, u⟩ := e
      intro h1 h2
      simp only [tablesD, keysD, List.cons.injEq] at h1 h2
      simp only [sentD, h1.1, sent_of_tables t u h2.1, sent_of_tablesD ds es h1.2 h2.2]
end

theorem tables_iff (t u : Tree) : tables t = tables u ↔ t.sent = u.sent :=
  ⟨sent_of_tables t u, fun h => by rw [← tables_sent t, h, tables_sent]⟩

mutual
theorem sent_wire : ∀ t : Tree, t.wire.sent = t.wire
  | .empty => by simp [wire, sent]
  | .value (.str _) => by simp [wire, sent]
  | .value (.int _) => by simp [wire, sent]
  | .value (.dbl d) => by simp only [wire, sent, ← wireDbl_eq, wireDbl_twice]
  | .value (.bool _) => by simp [wire, sent]
  | .value (.other _ _) => by simp [wire, sent]
  | .list [] => by simp [wire, sent]
  | .list (t :: ts) => by simp only [wire, sent, sentL, sent_wire t, sent_wireL ts]
  | .dict [] => by simp [wire, sent]
  | .dict ((k, t) :: ds) => by simp only [wire, sent, sentD, sent_wire t, sent_wireD ds]
theorem sent_wireL : ∀ ts : List Tree, sentL (wireL ts) = wireL ts
  | [] => by simp [wireL, sentL]
  | t :: ts => by simp only [wireL, sentL, sent_wire t, sent_wireL ts]
theorem sent_wireD : ∀ ds : List (Str × Tree), sentD (wireD ds) = wireD ds
  | [] => by simp [wireD, sentD]
  | (k, t) :: ds => by simp only [wireD, sentD, sent_wire t, sent_wireD ds]
end

theorem sentL_eq (ts : List Tree) : sentL ts = ts.map sent := by
  induction ts with
  | nil => simp [sentL]
  | cons t ts ih => simp [sentL, ih]
theorem sentD_eq (ds : List (Str × Tree)) : sentD ds = ds.map (fun d => (d.1, d.2.sent)) := by
  induction ds with
  | nil => simp [sentD]
  | cons d ds ih => obtain ⟨k, t⟩ := d; simp [sentD, ih]

/-- Nothing is lost but what the bytes do not show, iff there is no empty container. -/
theorem sent_eq_wire : ∀ t : Tree, t.sent = t.wire ↔ ¬ HasEmptyContainer t := by
  intro t
  induction t using Tree.ind with
  | empty => simp only [sent, wire, true_iff]; intro h; cases h
  | value v => cases v <;> simp only [sent, wire, true_iff] <;> (intro h; cases h)
  | list ts ih =>
    cases ts with
    | nil => simp only [sent, wire]; exact ⟨nofun, fun h => absurd HasEmptyContainer.emptyList h⟩
    | cons t ts =>
      rw [wire_list (by simp)]
      simp only [sent, sentL_eq, Tree.list.injEq]
      constructor
      · intro h hh
        cases hh with
        | list hm hu =>
          exact (ih _ hm).mp (List.map_inj_left.mp h _ hm) hu
      · intro h
        exact List.map_inj_left.mpr (fun u hu => (ih u hu).mpr (fun hh => h (.list hu hh)))
  | dict ds ih =>
    cases ds with
    | nil => simp only [sent, wire]; exact ⟨nofun, fun h => absurd HasEmptyContainer.emptyDict h⟩
    | cons d ds =>
      rw [wire_dict (by simp)]
      simp only [sent, sentD_eq, Tree.dict.injEq]
      constructor
      · intro h hh
        cases hh with
        | dict hm hu =>
          have := List.map_inj_left.mp h _ hm
          simp only [Prod.mk.injEq, true_and] at this
          exact (ih _ hm).mp this hu
      · intro h
        exact List.map_inj_left.mpr (fun u hu => by
          obtain ⟨k, u⟩ := u
          rw [(ih _ hu).mpr (fun hh => h (.dict hu hh))])

end LP.Flat
