import Verif.Spec.Installer
/-!
# Lemmas on the installer
-/
namespace LP.Installer

theorem lower_iff (c d : UInt8) (hd : 97 ≤ d ∧ d ≤ 122) : sameNoCase.lower c = d ↔ c = d ∨ c = d - 32 := by
  have h1 : 97 ≤ d.toNat := hd.1
  have h2 : d.toNat ≤ 122 := hd.2
  have hc := c.toNat_lt
  unfold sameNoCase.lower
  have e : (65 ≤ c ∧ c ≤ 90) ↔ (65 ≤ c.toNat ∧ c.toNat ≤ 90) := Iff.rfl
  have hs : (d - 32).toNat = d.toNat - 32 := by
    rw [UInt8.toNat_sub_of_le _ _ (by show 32 ≤ d.toNat; omega)]; rfl
  split
  · rename_i h
    rw [e] at h
    rw [← UInt8.toNat_inj, ← UInt8.toNat_inj, ← UInt8.toNat_inj, hs, UInt8.toNat_add]
    simp only [show (32 : UInt8).toNat = 32 from rfl]
    omega
  · rename_i h
    rw [e] at h
    rw [← UInt8.toNat_inj, ← UInt8.toNat_inj, hs]
    omega

theorem same_iff (b : Str) (hb : ∀ d ∈ b, 97 ≤ d ∧ d ≤ 122) : ∀ a : Str,
    a.map sameNoCase.lower = b ↔ a.length = b.length ∧ ∀ i, i < b.length → a[i]? = b[i]? ∨ a[i]? = (b.map (· - 32))[i]? := by
  induction b with
  | nil => intro a; simp
  | cons d b ih =>
    intro a
    cases a with
    | nil => simp
    | cons c a =>
      have hd := hb d (by simp)
      simp only [List.map_cons, List.cons.injEq, ih (fun d h => hb d (by simp [h])) a, lower_iff c d hd, List.length_cons]
      constructor
      · rintro ⟨h1, h2, h3⟩
        refine ⟨by omega, ?_⟩
        intro i hi
        cases i with
        | zero => simpa using h1
        | succ i => simpa using h3 i (by omega)
      · rintro ⟨h1, h2⟩
        refine ⟨by simpa using h2 0 (by omega), by omega, ?_⟩
        intro i hi
        simpa using h2 (i + 1) (by omega)

theorem small_letters {b : Str} (hb : ∀ d ∈ b, 97 ≤ d ∧ d ≤ 122) : b.map sameNoCase.lower = b := by
  conv => rhs; rw [← List.map_id b]
  apply List.map_congr_left
  intro d hd
  exact (lower_iff d d (hb d hd)).2 (.inl rfl)

theorem sameNoCase_iff (a : Option Str) (b : Str) (hb : ∀ d ∈ b, 97 ≤ d ∧ d ≤ 122) :
    sameNoCase a b = true ↔ ∃ x, a = some x ∧ x.length = b.length ∧
      ∀ i, i < b.length → x[i]? = b[i]? ∨ x[i]? = (b.map (· - 32))[i]? := by
  cases a with
  | none => simp [sameNoCase]
  | some a => simp only [sameNoCase, beq_iff_eq, small_letters hb, same_iff b hb, Option.some.injEq, exists_eq_left']

theorem asks_install (args : List Str) : Asks args .install ↔ sameNoCase args[0]? (bs "install") = true := by
  rw [sameNoCase_iff _ _ (by decide +kernel), show (bs "install").length = 7 from by decide +kernel,
    show (bs "install").map (· - 32) = bs "INSTALL" from by decide +kernel]
  constructor
  · rintro ⟨h1, h2⟩
    exact ⟨_, rfl, h1, h2⟩
  · rintro ⟨x, h, h1, h2⟩
    cases args with
    | nil => simp at h
    | cons a r => simp at h; subst h; exact .install h1 h2

theorem asks_uninstall (args : List Str) : Asks args .uninstall ↔ sameNoCase args[0]? (bs "uninstall") = true := by
  rw [sameNoCase_iff _ _ (by decide +kernel), show (bs "uninstall").length = 9 from by decide +kernel,
    show (bs "uninstall").map (· - 32) = bs "UNINSTALL" from by decide +kernel]
  constructor
  · intro h
    cases h with | uninstall h1 h2 => exact ⟨_, rfl, h1, h2⟩
  · rintro ⟨x, h, h1, h2⟩
    cases args with
    | nil => simp at h
    | cons a r => simp at h; subst h; exact .uninstall h1 h2

theorem asks_one {args : List Str} (h : Asks args .install) (h' : Asks args .uninstall) : False := by
  cases h; cases h'; omega

theorem asks_serve {args : List Str} (h : Asks args .serve) : False := by cases h

theorem task_iff (args : List Str) : (task args = .install ↔ Asks args .install) ∧ (task args = .uninstall ↔ Asks args .uninstall) := by
  unfold task
  constructor
  · rw [asks_install]
    split <;> rename_i h
    · simp [h]
    · split <;> simp [h]
  · split <;> rename_i h
    · constructor
      · intro e; cases e
      · intro h'; exact (asks_one ((asks_install _).2 h) h').elim
    · rw [asks_uninstall]
      split <;> rename_i h' <;> simp [h']

end LP.Installer
