import Verif.Model.Fs
import Verif.Spec.Path
/-!
# Strings cut at a byte
-/
namespace LP.Fs

theorem rfind_none {c : UInt8} {s : Str} : s.rfind c = none ↔ c ∉ s := by
  induction s with
  | nil => simp [Str.rfind]
  | cons x s ih =>
    simp only [Str.rfind, List.mem_cons, not_or]
    cases h : Str.rfind c s with
    | some i =>
      rw [h] at ih
      simp only [reduceCtorEq, false_iff, not_and]
      intro _ hs
      exact absurd (ih.2 hs) (by simp)
    | none =>
      rw [h] at ih
      have := ih.1 rfl
      by_cases hx : x = c
      · simp [hx]
      · simp [hx, this, Ne.symm hx]

theorem rfind_append {c : UInt8} (a b : Str) (h : c ∉ b) : Str.rfind c (a ++ c :: b) = some a.length := by
  induction a with
  | nil => simp [Str.rfind, rfind_none.2 h]
  | cons x a ih => simp [Str.rfind, ih]

/-- A string containing a byte is uniquely cut at its last occurrence. -/
theorem cut_last {c : UInt8} {s : Str} (h : c ∈ s) : ∃ a b, s = a ++ c :: b ∧ c ∉ b := by
  induction s with
  | nil => cases h
  | cons x s ih =>
    by_cases hs : c ∈ s
    · obtain ⟨a, b, e, hb⟩ := ih hs
      exact ⟨x :: a, b, by rw [e]; rfl, hb⟩
    · have : x = c := by
        rcases List.mem_cons.1 h with e | e
        · exact e.symm
        · exact absurd e hs
      exact ⟨[], s, by rw [this]; rfl, hs⟩

theorem cstr_eq (s : Str) : cstr s = untilNul s := by
  induction s with
  | nil => rfl
  | cons x s ih =>
    unfold cstr at ih ⊢
    rw [List.takeWhile_cons, untilNul, ih]
    by_cases h : x = 0 <;> simp [h]

theorem flatMap_filter {α : Type} (p : α → Bool) (l : List α) : l.flatMap (fun a => if p a then [a] else []) = l.filter p := by
  induction l with
  | nil => rfl
  | cons a l ih =>
    rw [List.flatMap_cons, ih]
    by_cases h : p a <;> simp [h]

end LP.Fs
