import Verif.Spec.Ieee
/-!
# The model's comparison of doubles is that of IEEE-754
-/
namespace LP.Ieee

theorem mag_toNat (d : Dbl) : (Dbl.mag d).toNat = d.toNat % 2 ^ 63 := by simp [Dbl.mag]

theorem fields (d : Dbl) : exponent d = d.toNat % 2 ^ 63 / 2 ^ 52 ∧ fraction d = d.toNat % 2 ^ 63 % 2 ^ 52 ∧ fraction d < 2 ^ 52 ∧ exponent d < 2048 ∧
    d.toNat = (if negative d then 2 ^ 63 else 0) + exponent d * 2 ^ 52 + fraction d := by
  have := d.isLt
  unfold exponent fraction negative
  refine ⟨by omega, by omega, by omega, by omega, ?_⟩
  by_cases h : 2 ^ 63 ≤ d.toNat
  · simp only [h, decide_true, if_true]; omega
  · simp only [h, decide_false, Bool.false_eq_true, if_false]; omega

theorem isNaN_iff (d : Dbl) : d.isNaN = true ↔ value d = none := by
  obtain ⟨h1, h2, h3, h4, h5⟩ := fields d
  have hm := mag_toNat d
  have : d.isNaN = true ↔ exponent d = 2047 ∧ fraction d ≠ 0 := by
    unfold Dbl.isNaN
    rw [BitVec.ult_iff_lt, BitVec.lt_def, hm]
    simp only [BitVec.toNat_ofNat]
    omega
  rw [this]
  unfold value
  by_cases he : exponent d = 2047 <;> by_cases hf : fraction d = 0 <;> simp [he, hf]

theorem units_zero {d : Dbl} : units d = 0 ↔ exponent d = 0 ∧ fraction d = 0 := by
  unfold units
  by_cases he : exponent d = 0
  · simp [he]
  · simp only [he, if_false, false_and, iff_false]
    have : 0 < 2 ^ (exponent d - 1) := Nat.two_pow_pos _
    exact Nat.ne_of_gt (Nat.mul_pos (by omega) this)

theorem isZero_iff (d : Dbl) : d.isZero = true ↔ value d = some (.fin 0) := by
  obtain ⟨h1, h2, h3, h4, h5⟩ := fields d
  have hm := mag_toNat d
  have : d.isZero = true ↔ exponent d = 0 ∧ fraction d = 0 := by
    unfold Dbl.isZero
    rw [beq_iff_eq, ← BitVec.toNat_inj, hm]
    simp only [BitVec.toNat_ofNat]
    omega
  rw [this, ← units_zero]
  unfold value
  by_cases he : exponent d = 2047
  · have hu : units d ≠ 0 := fun e => by have := (units_zero.1 e).1; omega
    simp only [he, if_true]
    constructor
    · intro e; exact absurd e hu
    · intro e; split at e <;> cases e
  · simp only [he, if_false, Option.some.injEq, Number.fin.injEq]
    split <;> omega

theorem units_lt {d e : Dbl} (h : exponent d < exponent e) : units d < units e := by
  obtain ⟨-, -, hf, -, -⟩ := fields d
  have he : exponent e ≠ 0 := by omega
  have hle : 2 ^ 52 * 2 ^ (exponent e - 1) ≤ units e := by
    unfold units; rw [if_neg he]; exact Nat.mul_le_mul_right _ (by omega)
  refine Nat.lt_of_lt_of_le ?_ hle
  unfold units
  by_cases hd : exponent d = 0
  · rw [if_pos hd]
    refine Nat.lt_of_lt_of_le hf ?_
    exact Nat.le_mul_of_pos_right _ (Nat.two_pow_pos _)
  · rw [if_neg hd]
    have h1 : 2 ^ (exponent d - 1) * 2 ≤ 2 ^ (exponent e - 1) := by
      rw [← Nat.pow_succ]; exact Nat.pow_le_pow_right (by omega) (by omega)
    have h2 : (2 ^ 52 + fraction d) * 2 ^ (exponent d - 1) < (2 ^ 52 * 2) * 2 ^ (exponent d - 1) :=
      Nat.mul_lt_mul_of_pos_right (by omega) (Nat.two_pow_pos _)
    refine Nat.lt_of_lt_of_le h2 ?_
    rw [Nat.mul_assoc, Nat.mul_comm 2]
    exact Nat.mul_le_mul_left _ h1

theorem units_inj {d e : Dbl} (h : units d = units e) : exponent d = exponent e ∧ fraction d = fraction e := by
  have hx : exponent d = exponent e := by
    rcases Nat.lt_trichotomy (exponent d) (exponent e) with h' | h' | h'
    · have := units_lt h'; omega
    · exact h'
    · have := units_lt h'; omega
  refine ⟨hx, ?_⟩
  unfold units at h
  rw [hx] at h
  by_cases he : exponent e = 0
  · simpa [he] using h
  · rw [if_neg he, if_neg he] at h
    have := Nat.eq_of_mul_eq_mul_right (Nat.two_pow_pos _) h
    omega

theorem ext {d e : Dbl} (h1 : negative d = negative e) (h2 : exponent d = exponent e) (h3 : fraction d = fraction e) : d = e := by
  obtain ⟨-, -, -, -, h⟩ := fields d
  obtain ⟨-, -, -, -, h'⟩ := fields e
  apply BitVec.eq_of_toNat_eq
  rw [h, h', h1, h2, h3]

/-- Equal numbers: the same bits, or two zeros. -/
theorem value_eq {d e : Dbl} (h : value d = value e) (hn : value d ≠ none) : d = e ∨ (value d = some (.fin 0) ∧ value e = some (.fin 0)) := by
  have h0 := h
  unfold value at h
  by_cases hd : exponent d = 2047
  · have hfd : fraction d = 0 := by
      refine Decidable.byContradiction fun hf => hn ?_
      simp [value, hd, hf]
    by_cases he : exponent e = 2047
    · by_cases hfe : fraction e = 0
      · simp only [hd, he, hfd, hfe, if_true, Option.some.injEq, Number.inf.injEq] at h
        exact .inl (ext h (by rw [hd, he]) (by rw [hfd, hfe]))
      · simp [hd, he, hfd, hfe] at h
    · simp [hd, he, hfd] at h
  · by_cases he : exponent e = 2047
    · by_cases hfe : fraction e = 0 <;> simp [hd, he, hfe] at h
    · by_cases hz : units d = 0
      · have hvd : value d = some (.fin 0) := by simp [value, hd, hz]
        exact .inr ⟨hvd, by rw [← h0]; exact hvd⟩
      · left
        simp only [hd, he, if_false, Option.some.injEq, Number.fin.injEq] at h
        have key : negative d = negative e ∧ units d = units e := by
          cases hnd : negative d <;> cases hne : negative e <;> simp only [hnd, hne, if_true, if_false, Bool.false_eq_true] at h <;>
            first | exact ⟨rfl, by omega⟩ | (exfalso; omega)
        obtain ⟨k1, k2⟩ := key
        obtain ⟨k3, k4⟩ := units_inj k2
        exact ext k1 k3 k4

theorem feq_iff (d e : Dbl) : Dbl.feq d e = true ↔ value d = value e ∧ value d ≠ none := by
  have hd := isNaN_iff d; have he := isNaN_iff e
  have zd := isZero_iff d; have ze := isZero_iff e
  simp only [Dbl.feq, Bool.and_eq_true, Bool.or_eq_true, Bool.not_eq_true', beq_iff_eq, zd, ze]
  constructor
  · rintro ⟨⟨h1, h2⟩, h3⟩
    have hv : value d ≠ none := fun e => by rw [hd.2 e] at h1; cases h1
    refine ⟨?_, hv⟩
    rcases h3 with rfl | ⟨h3, h4⟩
    · rfl
    · rw [h3, h4]
  · rintro ⟨h1, h2⟩
    refine ⟨⟨?_, ?_⟩, value_eq h1 h2⟩
    · cases hh : d.isNaN with
      | false => rfl
      | true => exact absurd (hd.1 hh) h2
    · cases hh : e.isNaN with
      | false => rfl
      | true => exact absurd (h1.trans (he.1 hh)) h2

end LP.Ieee
