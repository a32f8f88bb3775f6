import Verif.Lemma.Print
import Verif.Lemma.Canon
import Verif.Lemma.Interleave
/-!
# C122: what the printed form tells
-/
namespace LP
open Heap Tree

/-- In all states of all programs, two datagrams with plain content that print alike have the same content and answer
every reading call alike. -/
theorem C122_print_identifies {s s' : DState} {x y : Nat} {t u : Tree} (hx : Holds s x t) (hy : Holds s' y u)
    (ht : Plain t) (hu : Plain u) (pd : Dbl → Str) (po : Nat → Nat → Str)
    (h : observe pd po .print s x = observe pd po .print s' y) :
    t = u ∧ ∀ pd po q, observe pd po q s x = observe pd po q s' y := by
  rw [hx.observe, hy.observe] at h
  simp only [answer, Option.some.injEq, Except.ok.injEq, Ans.text.injEq] at h
  have e := (text_inj t u [] [] ht hu (by intro c hc; cases hc) (by intro c hc; cases hc) (by simpa using h)).1
  subst e
  exact ⟨rfl, fun pd po q => by rw [hx.observe, hy.observe]⟩

theorem digits_eq (s : Str) (h : ∀ c ∈ s, IsDigit c) : ∀ a : Nat, readInt.digits a s = (s.foldl (fun a c => 10 * a + (c.toNat - 48)) a : Nat) := by
  induction s with
  | nil => intro a; rfl
  | cons c s ih =>
    intro a
    have hc := h c (by simp)
    have hc' : 48 ≤ c.toNat := hc.1
    rw [readInt.digits, List.foldl_cons, ← ih (fun c hc => h c (by simp [hc]))]
    congr 1
    omega

theorem readInt_intToStr (i : Int) : readInt (intToStr i) = i := by
  have hn : ∀ n, readInt.digits 0 (natToStr n) = n := fun n => by
    have := digits_eq (natToStr n) (natToStr_digits n).2 0
    rw [show ((0 : Nat) : Int) = 0 from rfl] at this
    rw [this]
    exact congrArg _ (decimal_natToStr n)
  unfold intToStr
  split
  · rw [readInt, if_pos rfl, hn]; omega
  · cases h : natToStr i.natAbs with
    | nil => exact absurd h (natToStr_digits _).1
    | cons c s =>
      have hc : c ≠ 45 := by
        rintro rfl
        have := (natToStr_digits i.natAbs).2 45 (by rw [h]; simp)
        revert this; decide
      rw [readInt, if_neg hc, ← h, hn]; omega

/-- An integer prints as the decimal text of its value. -/
theorem C122_integers {s : DState} {x : Nat} {i : Int32} (hx : Holds s x (.value (.int i))) (pd : Dbl → Str) (po : Nat → Nat → Str) :
    ∃ w, observe pd po .print s x = some (.ok (.text w)) ∧ readInt w = i.toInt :=
  ⟨_, by rw [hx.observe]; rfl, readInt_intToStr _⟩

/-- Booleans print like the integers 1 and 0, although they are different and answer differently. -/
theorem C122_booleans {s s' : DState} {x y : Nat} (b : Bool) (hx : Holds s x (.value (.bool b)))
    (hy : Holds s' y (.value (.int (if b then 1 else 0)))) :
    (∀ pd po, observe pd po .print s x = observe pd po .print s' y) ∧
      ∀ pd po, observe pd po (.getVal .int) s x ≠ observe pd po (.getVal .int) s' y := by
  refine ⟨fun pd po => ?_, fun pd po => ?_⟩
  · rw [hx.observe, hy.observe]
    have h0 : intToStr 0 = [48] := by
      rw [intToStr, if_neg (by decide), natToStr, if_pos (by decide)]; rfl
    have h1 : intToStr 1 = [49] := by
      rw [intToStr, if_neg (by decide), natToStr, if_pos (by decide)]; rfl
    cases b <;> simp [answer, text, h0, h1]
  · rw [hx.observe, hy.observe]
    cases b <;> simp [answer, Val.ty]

/-- Quotation marks in strings are not escaped: a list of two strings prints like a list of one. -/
theorem C122_quotes {s s' : DState} {x y : Nat} (a b : Str) (hx : Holds s x (.list [.value (.str a), .value (.str b)]))
    (hy : Holds s' y (.list [.value (.str (a ++ bs "\", \"" ++ b))])) :
    (∀ pd po, observe pd po .print s x = observe pd po .print s' y) ∧
      ∀ pd po, observe pd po .getCount s x ≠ observe pd po .getCount s' y := by
  refine ⟨fun pd po => ?_, fun pd po => ?_⟩
  · rw [hx.observe, hy.observe]
    simp only [answer, text, textL, joinComma, show bs "\", \"" = [34, 44, 32, 34] from by decide +kernel]
    simp
  · rw [hx.observe, hy.observe]
    simp [answer]

/-- Keys are neither quoted nor escaped: a dictionary of two entries prints like a dictionary of one. -/
theorem C122_keys {s s' : DState} {x y : Nat} (k j : Str) (t u : Tree) (pd : Dbl → Str) (po : Nat → Nat → Str)
    (hx : Holds s x (.dict [(k, t), (j, u)])) (hy : Holds s' y (.dict [(k ++ bs ": " ++ text pd po t ++ bs ", " ++ j, u)])) :
    observe pd po .print s x = observe pd po .print s' y ∧ observe pd po .getCount s x ≠ observe pd po .getCount s' y := by
  refine ⟨?_, ?_⟩
  · rw [hx.observe, hy.observe]
    simp only [answer, text, textD, joinComma, show bs ": " = [58, 32] from by decide +kernel, show bs ", " = [44, 32] from by decide +kernel]
    simp
  · rw [hx.observe, hy.observe]
    simp [answer]

namespace Ex
/-- Documents for the theorems above: 0 and 1 plain and alike, then pairs that print alike. -/
def progP : List Stmt := [
  .decl 0 .dict, .addVal 0 [.key (bs "a")] (.int 5), .addVal 0 [.key (bs "a")] (.str (bs "x, y")), .declCopy 1 0,
  .declVal 2 (.bool true), .declVal 3 (.int 1),
  .decl 4 .list, .addVal 4 [] (.str (bs "a")), .addVal 4 [] (.str (bs "b")),
  .decl 5 .list, .addVal 5 [] (.str (bs "a" ++ bs "\", \"" ++ bs "b")),
  .decl 6 .dict, .setVal 6 [.key (bs "k")] (.str (bs "v")), .setVal 6 [.key (bs "l")] (.int 2),
  .decl 7 .dict, .setVal 7 [.key (bs "k" ++ bs ": " ++ bs "\"v\"" ++ bs ", " ++ bs "l")] (.int 2)]
/-- Document 0. -/
def docP : Tree := .dict [(bs "a", .list [.value (.int 5), .value (.str (bs "x, y"))])]

theorem stateP : ∃ s, Holds s 0 docP ∧ Holds s 1 docP ∧ Plain docP ∧ Holds s 2 (.value (.bool true)) ∧
    Holds s 3 (.value (.int (if true then 1 else 0))) ∧ Holds s 4 (.list [.value (.str (bs "a")), .value (.str (bs "b"))]) ∧
    Holds s 5 (.list [.value (.str (bs "a" ++ bs "\", \"" ++ bs "b"))]) ∧
    Holds s 6 (.dict [(bs "k", .value (.str (bs "v"))), (bs "l", .value (.int 2))]) ∧
    Holds s 7 (.dict [(bs "k" ++ bs ": " ++ text (fun _ => []) (fun _ _ => []) (.value (.str (bs "v"))) ++ bs ", " ++ bs "l",
      .value (.int 2))]) := by
  obtain ⟨s, _, hsim⟩ := steps_sim progP Sim.init
  refine ⟨s, hsim.holds.2 rfl, hsim.holds.2 rfl, ?_, hsim.holds.2 rfl, hsim.holds.2 rfl, hsim.holds.2 rfl, hsim.holds.2 rfl,
    hsim.holds.2 rfl, hsim.holds.2 rfl⟩
  simp only [docP, Plain, PlainD, PlainL]
  decide +kernel
end Ex

example : ∃ s, Holds s 0 Ex.docP ∧ Holds s 1 Ex.docP ∧ Plain Ex.docP ∧
    ∀ pd po, observe pd po .print s 0 = observe pd po .print s 1 := by
  obtain ⟨s, h0, h1, h2, _⟩ := Ex.stateP
  exact ⟨s, h0, h1, h2, fun pd po => by rw [h0.observe, h1.observe]⟩
example : ∃ s, (∀ pd po, observe pd po .print s 2 = observe pd po .print s 3) ∧
    (∀ pd po, observe pd po .print s 4 = observe pd po .print s 5) ∧ ∃ pd po, observe pd po .print s 6 = observe pd po .print s 7 := by
  obtain ⟨s, _, _, _, h2, h3, h4, h5, h6, h7⟩ := Ex.stateP
  exact ⟨s, (C122_booleans true h2 h3).1, (C122_quotes _ _ h4 h5).1, _, _, (C122_keys _ _ _ _ _ _ h6 h7).1⟩
example : ∃ s w, observe (fun _ => []) (fun _ _ => []) .print s 3 = some (.ok (.text w)) ∧ readInt w = 1 := by
  obtain ⟨s, _, _, _, _, h3, _⟩ := Ex.stateP
  obtain ⟨w, h, e⟩ := C122_integers h3 (fun _ => []) (fun _ _ => [])
  exact ⟨s, w, h, e⟩

end LP
