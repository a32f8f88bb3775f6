import Verif.Model.Plugin
import Verif.Lemma.Decimal
import Verif.Lemma.Dict
/-!
# Lemmas about plugin templates
-/
namespace LP.Plugin

theorem freeIndex_some {taken : Nat → Bool} {n i k : Nat} (h : freeIndex taken n i = some k) :
    i ≤ k ∧ k < i + n ∧ taken k = false ∧ ∀ j, i ≤ j → j < k → taken j = true := by
  induction n generalizing i with
  | zero => simp [freeIndex] at h
  | succ n ih =>
    rw [freeIndex] at h
    split at h
    · rename_i ht
      obtain ⟨h1, h2, h3, h4⟩ := ih h
      refine ⟨by omega, by omega, h3, ?_⟩
      intro j hj hk
      by_cases e : j = i
      · rw [e]; exact ht
      · exact h4 j (by omega) hk
    · rename_i ht
      simp at h ht
      subst h
      exact ⟨by omega, by omega, ht, fun j h1 h2 => by omega⟩

theorem freeIndex_eq {taken : Nat → Bool} {k : Nat} (n i : Nat) (hi : i ≤ k) (hk : k < i + n) (h : taken k = false)
    (hb : ∀ j, i ≤ j → j < k → taken j = true) : freeIndex taken n i = some k := by
  induction n generalizing i with
  | zero => omega
  | succ n ih =>
    rw [freeIndex]
    by_cases e : i = k
    · subst e; simp [h]
    · rw [hb i (by omega) (by omega)]
      simp only [↓reduceIte]
      exact ih (i + 1) (by omega) (by omega) (fun j h1 h2 => hb j (by omega) h2)

theorem name_inj {t : Template} {a b : Nat} (h : t.name a = t.name b) : a = b :=
  natToStr_inj (List.append_cancel_left h)

theorem name_ne_nil (t : Template) (a : Nat) : t.name a ≠ [] := by
  intro h
  exact (natToStr_digits a).1 (List.append_eq_nil_iff.1 h).2

/-- What a successful or failing call of `Instantiate` does to the template. -/
theorem instantiate_tmpl {early : Bool} {p : Option Nat} {s s' : TS} {r : Str × Option Inst}
    (h : instantiate early p s = .ok r s') :
    ∃ k, k < intValues ∧ s.tmpl.indexedInstanceExists k = false ∧ (∀ j, j < k → s.tmpl.indexedInstanceExists j = true) ∧
      r.1 = s.tmpl.name k ∧ s'.tmpl = { s.tmpl with instances := s.tmpl.instances.insert (s.tmpl.name k) r.2 } := by
  unfold instantiate at h
  split at h
  · cases h
  · rename_i k hk
    obtain ⟨h1, h2, h3, h4⟩ := freeIndex_some hk
    refine ⟨k, by omega, h3, fun j hj => h4 j (by omega) hj, ?_⟩
    dsimp only at h
    split at h
    · cases h
    · split at h
      · cases h
      · cases h
      · cases h
      · split at h
        · cases h
        · split at h
          · cases h
          · cases h; exact ⟨rfl, rfl⟩
          · cases h; exact ⟨rfl, rfl⟩

/-- A normal return gives what the library made. -/
theorem instantiate_made {early : Bool} {p : Option Nat} {s s' : TS} {r : Str × Option Inst} {f : Str → Made}
    (h : instantiate early p s = .ok r s') (hf : s.tmpl.make = some f) :
    (∃ n, f n = .null) ∨ ∃ n i, f n = .object i ∧ r.2 = some i := by
  unfold instantiate at h
  split at h
  · cases h
  · rename_i k hk
    dsimp only at h
    split at h
    · cases h
    · split at h
      · cases h
      · cases h
      · cases h
      · rw [hf] at h
        simp only at h
        split at h
        · cases h
        · rename_i hn; exact .inl ⟨_, hn⟩
        · rename_i i hi; cases h; exact .inr ⟨_, i, hi, rfl⟩

/-- A failing call of `Instantiate` leaves the template alone, or leaves a null pointer if the left side is evaluated
first and the creation fails. -/
theorem instantiate_throw {early : Bool} {p : Option Nat} {s s' : TS} {e : Exn}
    (h : instantiate early p s = .throw e s') :
    s'.tmpl = s.tmpl ∨
      (early = true ∧ (s.tmpl.make = none ∨ ∃ f, s.tmpl.make = some f ∧ ∃ n x, f n = .throws x) ∧
        ∃ k, s.tmpl.indexedInstanceExists k = false ∧ s'.tmpl =
          { s.tmpl with instances := s.tmpl.instances.insert (s.tmpl.name k) none }) := by
  unfold instantiate at h
  split at h
  · cases h
  · rename_i k hk
    obtain ⟨h1, h2, h3, h4⟩ := freeIndex_some hk
    dsimp only at h
    split at h
    · cases h
    · split at h
      · cases h; exact .inl rfl
      · cases h
      · cases h
      · split at h
        · rename_i hm
          cases h
          cases early
          · exact .inl rfl
          · exact .inr ⟨rfl, .inl hm, k, h3, rfl⟩
        · rename_i f hm
          split at h
          · rename_i x hx
            cases h
            cases early
            · exact .inl rfl
            · exact .inr ⟨rfl, .inr ⟨f, hm, _, _, hx⟩, k, h3, rfl⟩
          · cases h
          · cases h

theorem has_insert {V : Type} (k k' : Str) (v : V) (d : Dict V) :
    (d.insert k' v).has k = (decide (k' = k) || d.has k) := by
  unfold Dict.has
  rw [Dict.find_insert]
  split <;> simp_all

end LP.Plugin
