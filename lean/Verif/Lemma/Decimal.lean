import Verif.Model.Str
/-!
# Decimal numbers
-/
namespace LP

/-- The number a decimal string stands for. -/
def decimal (s : Str) : Nat := s.foldl (fun a c => 10 * a + (c.toNat - 48)) 0

theorem digit_toNat {n : Nat} (h : n < 10) : (digit n).toNat = 48 + n := by
  have : ∀ m : Fin 10, (digit m).toNat = 48 + m := by decide
  exact this ⟨n, h⟩

theorem decimal_natToStr (n : Nat) : decimal (natToStr n) = n := by
  induction n using Nat.strongRecOn with
  | _ n ih =>
    rw [natToStr]
    split
    · rename_i h
      simp [decimal, digit_toNat h]
    · rename_i h
      have h1 := ih (n / 10) (by omega)
      have h2 := digit_toNat (Nat.mod_lt n (by omega : 10 > 0))
      unfold decimal at h1 ⊢
      rw [List.foldl_append, h1]
      simp [h2]
      omega

theorem natToStr_inj {a b : Nat} (h : natToStr a = natToStr b) : a = b := by
  have := congrArg decimal h
  simpa [decimal_natToStr] using this

/-- A decimal digit. -/
def IsDigit (c : UInt8) : Prop := 48 ≤ c ∧ c ≤ 57

instance (c : UInt8) : Decidable (IsDigit c) := by unfold IsDigit; infer_instance

theorem isDigit_digit {n : Nat} (h : n < 10) : IsDigit (digit n) := by
  have : ∀ m : Fin 10, IsDigit (digit m) := by decide
  exact this ⟨n, h⟩

theorem natToStr_digits (n : Nat) : natToStr n ≠ [] ∧ ∀ c ∈ natToStr n, IsDigit c := by
  induction n using Nat.strongRecOn with
  | _ n ih =>
    rw [natToStr]
    split
    · rename_i h
      exact ⟨by simp, by simpa using isDigit_digit h⟩
    · rename_i h
      obtain ⟨_, h2⟩ := ih (n / 10) (by omega)
      refine ⟨by simp, ?_⟩
      intro c hc
      rcases List.mem_append.1 hc with hc | hc
      · exact h2 c hc
      · simp at hc; subst hc; exact isDigit_digit (Nat.mod_lt _ (by omega))

theorem natToStr_mul_ten {d : Nat} (h : 1 ≤ d) : natToStr (10 * d) = natToStr d ++ [48] := by
  rw [natToStr, if_neg (by omega)]
  have h1 : 10 * d / 10 = d := by omega
  have h2 : 10 * d % 10 = 0 := by omega
  rw [h1, h2]
  rfl

/-- Splitting off the digits at the end is unambiguous if the rest does not end in a digit. -/
theorem append_digits_inj : ∀ {a b : Str} {x y : Str}, (∀ c ∈ x, IsDigit c) → (∀ c ∈ y, IsDigit c) →
    (∀ c, a.getLast? = some c → ¬ IsDigit c) → (∀ c, b.getLast? = some c → ¬ IsDigit c) → a ++ x = b ++ y → a = b := by
  intro a b x y hx hy ha hb h
  rcases List.append_eq_append_iff.1 h with ⟨m, rfl, rfl⟩ | ⟨m, rfl, rfl⟩
  · rcases List.eq_nil_or_concat m with rfl | ⟨m', c, rfl⟩
    · simp
    · exact absurd (hx c (by simp)) (hb c (by simp))
  · rcases List.eq_nil_or_concat m with rfl | ⟨m', c, rfl⟩
    · simp
    · exact absurd (hy c (by simp)) (ha c (by simp))

end LP
