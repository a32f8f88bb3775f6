import Verif.Lemma.Canon
/-! # C12, C13, C20: equality and printing -/
namespace LP
open Heap Tree

/-! ## C12 -/

/-- In every state of every program, `x == y` returns, and is true exactly when the contents are the same: same kind, and
same value (doubles as in IEEE-754), same elements in order, or same keys with the same entries. -/
theorem C12_equality_structural {s : DState} (hs : Reachable s) {x y : Nat} (hx : s.env x ≠ none) (hy : s.env y ≠ none) :
    ∃ t u r, Holds s x t ∧ Holds s y u ∧ observeEq s x y = some r ∧ (r = true ↔ Same t u) := by
  obtain ⟨t, ht⟩ := hs.inv.holds hx
  obtain ⟨u, hu⟩ := hs.inv.holds hy
  obtain ⟨r, h1, h2⟩ := ht.observeEq hu
  exact ⟨t, u, r, ht, hu, h1, h2⟩

/-- The same for RawDatagrams whose sub-datagrams may be shared, and nothing is changed by comparing. -/
theorem C12_equality_structural_raw {h : Heap} {t u : Tree} {a b : Nat} (ht : Rep h (fun x => x < h.next) t a)
    (hu : Rep h (fun x => x < h.next) u b) : ∃ r, Datagram.eq a b h = .ok r h ∧ (r = true ↔ Same t u) := by
  have hd := Rep.depth_next hu
  obtain ⟨r, hr, hri⟩ := eq_rep (h.next + 1) u t _ _ b a (Or.inl (by omega)) hu ht
  exact ⟨r, hr, hri.trans ⟨Same.symm, Same.symm⟩⟩

namespace Ex
/-- Variables 0 and 1 get the same entries in opposite orders; 2 differs from them in the sign of a zero only. -/
def prog3 : List Cmd := [.make 0 .dict, .indexKey 5 0 (bs "a"), .assignVal 5 (.int 1), .indexKey 5 0 (bs "b"), .assignVal 5 (.dbl 0),
  .make 1 .dict, .indexKey 5 1 (bs "b"), .assignVal 5 (.dbl 0), .indexKey 5 1 (bs "a"), .assignVal 5 (.int 1),
  .copyCtor 2 0, .indexKey 5 2 (bs "b"), .assignVal 5 (.dbl 0x8000000000000000#64),
  .makeVal 3 (.dbl 0x7ff8000000000000#64)]
theorem state3 : ∃ s, Reachable s ∧ s.env 0 ≠ none ∧ s.env 1 ≠ none ∧ s.env 2 ≠ none ∧ s.env 3 ≠ none ∧
    observeEq s 0 1 = some true ∧ observeEq s 1 2 = some true ∧ observeEq s 3 3 = some false ∧ s.env 9 = none := by
  obtain ⟨s, hr, h⟩ := reach_eval prog3 (fun s => (s.env 0).isSome && (s.env 1).isSome && (s.env 2).isSome && (s.env 3).isSome &&
    decide (observeEq s 0 1 = some true) && decide (observeEq s 1 2 = some true) && decide (observeEq s 3 3 = some false) &&
    decide (s.env 9 = none)) true (by decide +kernel)
  simp only [Bool.and_eq_true, decide_eq_true_eq] at h
  obtain ⟨⟨⟨⟨⟨⟨⟨h0, h1⟩, h2⟩, h3⟩, h4⟩, h5⟩, h6⟩, h7⟩ := h
  refine ⟨s, hr, ?_, ?_, ?_, ?_, h4, h5, h6, h7⟩ <;> intro e <;> simp_all
end Ex

example : ∃ s t u r, Reachable s ∧ Holds s 0 t ∧ Holds s 2 u ∧ observeEq s 0 2 = some r ∧ (r = true ↔ Same t u) := by
  obtain ⟨s, hs, h0, _, h2, _⟩ := Ex.state3
  obtain ⟨t, u, r, h⟩ := C12_equality_structural hs h0 h2
  exact ⟨s, t, u, r, hs, h⟩

/-! ## C13 -/

theorem C13_symmetric {s : DState} (hs : Reachable s) (x y : Nat) : observeEq s x y = observeEq s y x := by
  by_cases hx : s.env x = none
  · simp only [observeEq, hx]; split <;> simp_all
  by_cases hy : s.env y = none
  · simp only [observeEq, hy]; split <;> simp_all
  obtain ⟨t, ht⟩ := hs.inv.holds hx
  obtain ⟨u, hu⟩ := hs.inv.holds hy
  obtain ⟨r, h1, h2⟩ := ht.observeEq hu
  obtain ⟨r', h1', h2'⟩ := hu.observeEq ht
  rw [h1, h1']
  have : r = r' := by rw [Bool.eq_iff_iff, h2, h2']; exact ⟨Same.symm, Same.symm⟩
  rw [this]

theorem C13_transitive {s : DState} (hs : Reachable s) {x y z : Nat} (hxy : observeEq s x y = some true) (hyz : observeEq s y z = some true) :
    observeEq s x z = some true := by
  have hx : s.env x ≠ none := by intro e; simp [observeEq, e] at hxy
  have hy : s.env y ≠ none := by intro e; simp [observeEq, e] at hyz
  have hz : s.env z ≠ none := by intro e; simp only [observeEq, e] at hyz; split at hyz <;> simp_all
  obtain ⟨t, ht⟩ := hs.inv.holds hx
  obtain ⟨u, hu⟩ := hs.inv.holds hy
  obtain ⟨v, hv⟩ := hs.inv.holds hz
  obtain ⟨r1, a1, b1⟩ := ht.observeEq hu
  obtain ⟨r2, a2, b2⟩ := hu.observeEq hv
  obtain ⟨r3, a3, b3⟩ := ht.observeEq hv
  rw [hxy] at a1; rw [hyz] at a2
  simp only [Option.some.injEq] at a1 a2
  rw [a3, b3.mpr (Same.trans (b1.mp a1.symm) (b2.mp a2.symm))]

/-- `x == x` is true exactly when `x` contains no NaN at any depth. -/
theorem C13_reflexive_iff_no_nan {s : DState} {x : Nat} {t : Tree} (ht : Holds s x t) :
    observeEq s x x = some true ↔ ¬ HasNaN t := by
  obtain ⟨r, h1, h2⟩ := ht.observeEq ht
  rw [h1, ← ht.canon.same_self, ← h2, Option.some.injEq]

/-- A copy compares equal to the original exactly when there is no NaN. -/
theorem C13_copy_equal_iff_no_nan {s : DState} (hs : Reachable s) {x y : Nat} {t : Tree} (hx : s.env x = none) (ht : Holds s y t) :
    ∃ s', Cmd.run (.copyCtor x y) s = .ok () s' ∧ (observeEq s' x y = some true ↔ ¬ HasNaN t) := by
  obtain ⟨a, ha, hr⟩ := ht
  obtain ⟨h1, hr1, w1, hext, hrep1, _⟩ := copyCtor_spec hs.inv.wf hr
  have hne : y ≠ x := by intro e; subst e; rw [hx] at ha; cases ha
  refine ⟨⟨h1, fun z => if z = x then some s.heap.next else s.env z⟩, by simp only [Cmd.run, Cmd.withVar, ha, Cmd.bindVar, hr1], ?_⟩
  have hX : Holds ⟨h1, fun z => if z = x then some s.heap.next else s.env z⟩ x t := ⟨s.heap.next, by simp, hrep1⟩
  have hY : Holds ⟨h1, fun z => if z = x then some s.heap.next else s.env z⟩ y t :=
    ⟨a, by simp [hne, ha], Rep.carry hr hext.1 (fun z hz _ => hext.2 z hz)⟩
  obtain ⟨r, e1, e2⟩ := hX.observeEq hY
  rw [e1, ← hX.canon.same_self, ← e2, Option.some.injEq]

example : ∃ s, Reachable s ∧ observeEq s 0 2 = some true := by
  obtain ⟨s, hs, _, _, _, _, h01, h12, _⟩ := Ex.state3
  exact ⟨s, hs, C13_transitive hs h01 h12⟩
example : ∃ s t, Reachable s ∧ Holds s 3 t ∧ HasNaN t := by
  obtain ⟨s, hs, _, _, _, h3, _, _, h33, _⟩ := Ex.state3
  obtain ⟨t, ht⟩ := hs.inv.holds h3
  refine ⟨s, t, hs, ht, Classical.byContradiction fun hn => ?_⟩
  rw [(C13_reflexive_iff_no_nan ht).mpr hn] at h33; cases h33
example : ∃ s t, Reachable s ∧ Holds s 0 t ∧ ∃ s', Cmd.run (.copyCtor 9 0) s = .ok () s' ∧ (observeEq s' 9 0 = some true ↔ ¬ HasNaN t) := by
  obtain ⟨s, hs, h0, _, _, _, _, _, _, h9⟩ := Ex.state3
  obtain ⟨t, ht⟩ := hs.inv.holds h0
  exact ⟨s, t, hs, ht, C13_copy_equal_iff_no_nan hs h9 ht⟩

/-! ## C20 -/

theorem print_of_content {s s' : DState} {x y : Nat} {t u : Tree} (hx : Holds s x t) (hy : Holds s' y u) (h : Alike t u)
    (pd : Dbl → Str) (po : Nat → Nat → Str) : observe pd po .print s x = observe pd po .print s' y := by
  rw [hx.canon.alike hy.canon h] at hx
  rw [hx.observe, hy.observe]

theorem print_format {s : DState} {x : Nat} {t : Tree} (hx : Holds s x t) (pd : Dbl → Str) (po : Nat → Nat → Str) :
    (∀ ts, t = .list ts → observe pd po .print s x = some (.ok (.text (bs "[" ++ (List.intercalate (bs ", ") (ts.map (text pd po))) ++ bs "]")))) ∧
    (∀ ds, t = .dict ds → ds.Pairwise (fun e f => e.1 < f.1) ∧
      observe pd po .print s x = some (.ok (.text (bs "{" ++ (List.intercalate (bs ", ") (ds.map fun e => e.1 ++ bs ": " ++ text pd po e.2)) ++ bs "}")))) := by
  have hj : ∀ xs : List Str, joinComma xs = List.intercalate (bs ", ") xs := by
    intro xs
    induction xs with
    | nil => rfl
    | cons a xs ih =>
      cases xs with
      | nil => simp [joinComma, List.intercalate]
      | cons b xs =>
        simp only [joinComma, ih]
        simp [List.intercalate, List.intersperse, show bs ", " = [44, 32] from by decide]
  refine ⟨?_, ?_⟩
  · rintro ts rfl
    rw [hx.observe]
    simp only [answer, text, textL_eq, hj]
    rfl
  · rintro ds rfl
    refine ⟨?_, ?_⟩
    · have := hx.sorted
      simp only [asDict] at this
      refine this.imp ?_
      intro e f h
      exact Str.lt_iff.mp h
    · rw [hx.observe]
      simp only [answer, text, textD_eq, hj]
      rfl

/-- In all states of all programs: datagrams with the same content print identically. -/
theorem C20_print_depends_on_content_only {s s' : DState} (hs : Reachable s) (hs' : Reachable s') {x y : Nat} (hx : s.env x ≠ none)
    (hy : s'.env y ≠ none) : ∃ t u, Holds s x t ∧ Holds s' y u ∧
      (Alike t u → ∀ (pd : Dbl → Str) (po : Nat → Nat → Str), observe pd po .print s x = observe pd po .print s' y) := by
  obtain ⟨t, ht⟩ := hs.inv.holds hx
  obtain ⟨u, hu⟩ := hs'.inv.holds hy
  exact ⟨t, u, ht, hu, fun h pd po => print_of_content ht hu h pd po⟩

/-- In all states of all programs, how containers print: elements in order, entries in strictly ascending bytewise key
order, separated by ", ". -/
theorem C20_print_format {s : DState} (hs : Reachable s) {x : Nat} (hx : s.env x ≠ none) :
    ∃ t, Holds s x t ∧ ∀ (pd : Dbl → Str) (po : Nat → Nat → Str),
      (∀ ts, t = .list ts → observe pd po .print s x = some (.ok (.text (bs "[" ++ (List.intercalate (bs ", ") (ts.map (text pd po))) ++ bs "]")))) ∧
      (∀ ds, t = .dict ds → ds.Pairwise (fun e f => e.1 < f.1) ∧
        observe pd po .print s x = some (.ok (.text (bs "{" ++ (List.intercalate (bs ", ") (ds.map fun e => e.1 ++ bs ": " ++ text pd po e.2)) ++ bs "}")))) := by
  obtain ⟨t, ht⟩ := hs.inv.holds hx
  exact ⟨t, ht, fun pd po => print_format ht pd po⟩

example : ∃ s t u, Reachable s ∧ Holds s 0 t ∧ Holds s 1 u := by
  obtain ⟨s, hs, h0, h1, _⟩ := Ex.state3
  obtain ⟨t, u, ht, hu, _⟩ := C20_print_depends_on_content_only hs hs h0 h1
  exact ⟨s, t, u, hs, ht, hu⟩
-- the same entries in opposite orders
example : ∃ s t u, Holds s 0 t ∧ Holds s 1 u ∧ Alike t u ∧ (∃ ds, t = .dict ds ∧ ds.length = 2) ∧
    ∀ pd po, observe pd po .print s 0 = observe pd po .print s 1 := by
  obtain ⟨s, hr, hsim⟩ := steps_sim [.decl 0 .dict, .setVal 0 [.key (bs "a")] (.int 1), .setVal 0 [.key (bs "b")] (.int 2),
    .decl 1 .dict, .setVal 1 [.key (bs "b")] (.int 2), .setVal 1 [.key (bs "a")] (.int 1)] Sim.init
  have key : ∀ x, Store.steps (fun _ => none) [.decl 0 .dict, .setVal 0 [.key (bs "a")] (.int 1), .setVal 0 [.key (bs "b")] (.int 2),
      .decl 1 .dict, .setVal 1 [.key (bs "b")] (.int 2), .setVal 1 [.key (bs "a")] (.int 1)] |>.1 x |> (· = if x = 1 ∨ x = 0 then
        some (.dict [(bs "a", .value (.int 1)), (bs "b", .value (.int 2))]) else none) := by
    intro x
    by_cases h1 : x = 1
    · subst h1; rfl
    · by_cases h0 : x = 0
      · subst h0; rfl
      · simp [Store.steps, Store.step, Store.edit, Store.set, h1, h0]
  have hold : ∀ x, x = 1 ∨ x = 0 → Holds s x (.dict [(bs "a", .value (.int 1)), (bs "b", .value (.int 2))]) := by
    intro x hx
    have hk := key x
    simp only [hx, if_true] at hk
    cases he : s.env x with
    | none => rw [(hsim.dom x).mp he] at hk; cases hk
    | some a => exact ⟨a, he, hsim.rep x a _ he hk⟩
  exact ⟨s, _, _, hold 0 (Or.inr rfl), hold 1 (Or.inl rfl), Alike.refl _, ⟨_, rfl, rfl⟩,
    fun pd po => print_of_content (hold 0 (Or.inr rfl)) (hold 1 (Or.inl rfl)) (Alike.refl _) pd po⟩
example : ∃ s ds, Holds s 0 (.dict ds) ∧ ds.length = 2 ∧ ds.Pairwise (fun e f => e.1 < f.1) := by
  obtain ⟨s, hr, hsim⟩ := steps_sim [.decl 0 .dict, .setVal 0 [.key (bs "b")] (.int 1), .setVal 0 [.key (bs "a")] (.int 2)] Sim.init
  have hk : (Store.steps (fun _ => none) [.decl 0 .dict, .setVal 0 [.key (bs "b")] (.int 1), .setVal 0 [.key (bs "a")] (.int 2)]).1 0 =
    some (.dict [(bs "a", .value (.int 2)), (bs "b", .value (.int 1))]) := rfl
  cases he : s.env 0 with
  | none => rw [(hsim.dom 0).mp he] at hk; cases hk
  | some a =>
    have hh : Holds s 0 (.dict [(bs "a", .value (.int 2)), (bs "b", .value (.int 1))]) := ⟨a, he, hsim.rep 0 a _ he hk⟩
    exact ⟨s, _, hh, rfl, ((print_format hh (fun _ => []) (fun _ _ => [])).2 _ rfl).1⟩

end LP
