import Verif.Model.Dict
/-! Lemmas about byte-string order and sorted maps. -/
namespace LP

theorem Str.lt_irrefl (s : Str) : Str.lt s s = false := by
  induction s with
  | nil => rfl
  | cons a s ih => simp [Str.lt, ih]

theorem Str.lt_trans {s t u : Str} (h1 : Str.lt s t = true) (h2 : Str.lt t u = true) : Str.lt s u = true := by
  induction s generalizing t u with
  | nil => cases t <;> cases u <;> simp_all [Str.lt]
  | cons a s ih =>
    cases t with
    | nil => simp [Str.lt] at h1
    | cons b t =>
      cases u with
      | nil => simp [Str.lt] at h2
      | cons c u =>
        simp only [Str.lt] at *
        simp only [UInt8.lt_iff_toNat_lt] at *
        have ea : ∀ {x y : UInt8}, ¬ x.toNat < y.toNat → ¬ y.toNat < x.toNat → x = y := by
          intro x y h1 h2; apply UInt8.toNat_inj.mp; omega
        split at h1
        · split at h2
          · rw [if_pos (by omega)]
          · split at h2
            · simp at h2
            · rw [if_pos (by omega)]
        · split at h1
          · simp at h1
          · split at h2
            · rw [if_pos (by omega)]
            · split at h2
              · simp at h2
              · rw [if_neg (by omega), if_neg (by omega)]
                exact ih h1 h2

/-- The order of `std::map` is the lexicographic order of unsigned bytes. -/
theorem Str.lt_iff {s t : Str} : Str.lt s t = true ↔ s < t := by
  induction s generalizing t with
  | nil => cases t <;> simp [Str.lt]
  | cons a s ih =>
    cases t with
    | nil => simp [Str.lt]
    | cons b t =>
      simp only [Str.lt, List.cons_lt_cons_iff]
      split
      · rename_i h; simp [h]
      · rename_i h
        split
        · rename_i h2
          have hne : a ≠ b := by intro e; subst e; exact h h2
          simp [h, hne]
        · rename_i h2
          have he : a = b := UInt8.le_antisymm (UInt8.not_lt.mp h2) (UInt8.not_lt.mp h)
          subst he; simp [ih]

theorem Str.lt_asymm {s t : Str} (h : Str.lt s t = true) : Str.lt t s = false := by
  cases h' : Str.lt t s with
  | false => rfl
  | true => have := Str.lt_trans h h'; simp [Str.lt_irrefl] at this

theorem Str.lt_ne {s t : Str} (h : Str.lt s t = true) : s ≠ t := by
  intro e; subst e; simp [Str.lt_irrefl] at h

theorem Str.lt_total {s t : Str} (hne : s ≠ t) (h : Str.lt s t = false) : Str.lt t s = true := by
  induction s generalizing t with
  | nil => cases t <;> simp_all [Str.lt]
  | cons a s ih =>
    cases t with
    | nil => simp [Str.lt]
    | cons b t =>
      simp only [Str.lt] at *
      by_cases hab : a < b
      · simp [hab] at h
      · by_cases hba : b < a
        · simp [hba]
        · have : a = b := by
            simp only [UInt8.lt_iff_toNat_lt] at *
            apply UInt8.toNat_inj.mp; omega
          subst this
          simp only [hab, if_false] at h ⊢
          exact ih (by intro e; apply hne; rw [e]) h

namespace Dict
variable {V W : Type}

@[simp] theorem find_nil (k : Str) : find k ([] : Dict V) = none := rfl
@[simp] theorem sorted_nil : Sorted ([] : Dict V) := List.Pairwise.nil

theorem sorted_cons {k : Str} {v : V} {d : Dict V} :
    Sorted ((k, v) :: d) ↔ (∀ e ∈ d, Str.lt k e.1 = true) ∧ Sorted d := by
  unfold Sorted; rw [List.pairwise_cons]

theorem find_insert (k k' : Str) (v : V) (d : Dict V) :
    find k' (insert k v d) = if k = k' then some v else find k' d := by
  induction d with
  | nil => simp [insert, find]
  | cons e d ih =>
    obtain ⟨q, w⟩ := e
    simp only [insert]
    split
    · rename_i h; subst h; simp only [find]; split <;> simp_all
    · split
      · simp only [find]
      · simp only [find, ih]
        by_cases h1 : q = k'
        · subst h1; simp_all
        · simp [h1]

@[simp] theorem find_insert_self (k : Str) (v : V) (d : Dict V) : find k (insert k v d) = some v := by
  simp [find_insert]

theorem find_insert_ne {k k' : Str} (h : k ≠ k') (v : V) (d : Dict V) :
    find k' (insert k v d) = find k' d := by
  simp [find_insert, h]

theorem mem_insert {k : Str} {v : V} {d : Dict V} {e : Str × V} (h : e ∈ insert k v d) : e = (k, v) ∨ e ∈ d := by
  induction d with
  | nil => simpa [insert] using h
  | cons x d ih =>
    obtain ⟨q, w⟩ := x
    simp only [insert] at h
    split at h
    · simp only [List.mem_cons] at h ⊢; rcases h with h | h <;> simp [h]
    · split at h
      · simp only [List.mem_cons] at h ⊢; rcases h with h | h | h <;> simp [h]
      · simp only [List.mem_cons] at h ⊢
        rcases h with h | h
        · simp [h]
        · rcases ih h with h | h <;> simp [h]

theorem insert_sorted {k : Str} {v : V} {d : Dict V} (h : Sorted d) : Sorted (insert k v d) := by
  induction d with
  | nil => simp [insert, Sorted]
  | cons x d ih =>
    obtain ⟨q, w⟩ := x
    rw [sorted_cons] at h
    simp only [insert]
    split
    · rename_i e; subst e; rw [sorted_cons]; exact h
    · rename_i hne
      split
      · rename_i hlt
        rw [sorted_cons]
        refine ⟨?_, by rw [sorted_cons]; exact h⟩
        intro e he
        simp only [List.mem_cons] at he
        rcases he with rfl | he
        · exact hlt
        · exact Str.lt_trans hlt (h.1 e he)
      · rename_i hnl
        rw [sorted_cons]
        refine ⟨?_, ih h.2⟩
        intro e he
        rcases mem_insert he with rfl | he
        · exact Str.lt_total hne (by simpa using hnl)
        · exact h.1 e he

theorem find_some_mem {k : Str} {v : V} {d : Dict V} (h : find k d = some v) : (k, v) ∈ d := by
  induction d with
  | nil => simp at h
  | cons x d ih =>
    obtain ⟨q, w⟩ := x
    simp only [find] at h
    split at h
    · simp_all
    · simp [ih h]

theorem find_eq_none {k : Str} {d : Dict V} : find k d = none ↔ ∀ e ∈ d, e.1 ≠ k := by
  induction d with
  | nil => simp
  | cons x d ih =>
    obtain ⟨q, w⟩ := x
    simp only [find, List.mem_cons, forall_eq_or_imp]
    split
    · simp_all
    · rw [ih]; simp_all

theorem mem_find {k : Str} {v : V} {d : Dict V} (hs : Sorted d) (h : (k, v) ∈ d) : find k d = some v := by
  induction d with
  | nil => simp at h
  | cons x d ih =>
    obtain ⟨q, w⟩ := x
    rw [sorted_cons] at hs
    simp only [List.mem_cons, Prod.mk.injEq] at h
    simp only [find]
    rcases h with ⟨rfl, rfl⟩ | h
    · simp
    · rw [if_neg (Str.lt_ne (hs.1 _ h))]
      exact ih hs.2 h

theorem erase_subset {k : Str} {d : Dict V} {e : Str × V} (h : e ∈ erase k d) : e ∈ d := by
  induction d with
  | nil => simp [erase] at h
  | cons x d ih =>
    obtain ⟨q, w⟩ := x
    simp only [erase] at h
    split at h
    · simp [h]
    · simp only [List.mem_cons] at h ⊢
      rcases h with h | h
      · exact Or.inl h
      · exact Or.inr (ih h)

theorem erase_sublist (k : Str) (d : Dict V) : (erase k d).Sublist d := by
  induction d with
  | nil => exact List.Sublist.refl _
  | cons e d ih =>
    obtain ⟨q, u⟩ := e
    simp only [erase]
    split
    · exact List.sublist_cons_self _ _
    · exact List.Sublist.cons_cons _ ih

theorem erase_sorted {k : Str} {d : Dict V} (h : Sorted d) : Sorted (erase k d) := by
  induction d with
  | nil => simp [erase]
  | cons x d ih =>
    obtain ⟨q, w⟩ := x
    rw [sorted_cons] at h
    simp only [erase]
    split
    · exact h.2
    · rw [sorted_cons]; exact ⟨fun e he => h.1 e (erase_subset he), ih h.2⟩

theorem find_erase {k k' : Str} {d : Dict V} (hs : Sorted d) :
    find k' (erase k d) = if k = k' then none else find k' d := by
  induction d with
  | nil => simp [erase]
  | cons x d ih =>
    obtain ⟨q, w⟩ := x
    rw [sorted_cons] at hs
    simp only [erase]
    split
    · rename_i e; subst e
      by_cases h : q = k'
      · subst h; simp only [if_true]
        rw [find_eq_none]; intro e he; exact (Str.lt_ne (hs.1 e he)).symm
      · simp [h, find]
    · rename_i hne
      simp only [find, ih hs.2]
      by_cases h : q = k'
      · subst h; simp [Ne.symm hne]
      · simp [h]

/-- Two sorted maps with the same lookups are the same list. -/
theorem ext {d e : Dict V} (hd : Sorted d) (he : Sorted e) (h : ∀ k, find k d = find k e) : d = e := by
  induction d generalizing e with
  | nil =>
    cases e with
    | nil => rfl
    | cons y e => obtain ⟨q, w⟩ := y; have := h q; simp [find] at this
  | cons x d ih =>
    obtain ⟨k, v⟩ := x
    cases e with
    | nil => have := h k; simp [find] at this
    | cons y e =>
      obtain ⟨q, w⟩ := y
      have hd' := sorted_cons.mp hd
      have he' := sorted_cons.mp he
      have hkq : k = q := by
        by_cases hkq : k = q
        · exact hkq
        · exfalso
          cases hl : Str.lt k q with
          | true =>
            have h1 := h k
            simp only [find, if_true] at h1
            rw [if_neg (Ne.symm hkq)] at h1
            have := he'.1 _ (find_some_mem h1.symm)
            simp only at this
            exact absurd (Str.lt_trans hl this) (by simp [Str.lt_irrefl])
          | false =>
            have hl' := Str.lt_total hkq hl
            have h1 := h q
            simp only [find, if_true] at h1
            rw [if_neg hkq] at h1
            have := hd'.1 _ (find_some_mem h1)
            simp only at this
            exact absurd (Str.lt_trans hl' this) (by simp [Str.lt_irrefl])
      subst hkq
      have hv : v = w := by have := h k; simpa [find] using this
      subst hv
      congr 1
      apply ih hd'.2 he'.2
      intro k'
      by_cases hk : k = k'
      · subst hk
        rw [find_eq_none.mpr (fun e' he'' => (Str.lt_ne (hd'.1 e' he'')).symm),
          find_eq_none.mpr (fun e' he'' => (Str.lt_ne (he'.1 e' he'')).symm)]
      · have := h k'; simpa [find, hk] using this

/-- Inserting a key above all present ones appends. -/
theorem insert_append {k : Str} {v : V} {d : Dict V} (h : ∀ e ∈ d, Str.lt e.1 k = true) :
    insert k v d = d ++ [(k, v)] := by
  induction d with
  | nil => rfl
  | cons x d ih =>
    obtain ⟨q, w⟩ := x
    have hq := h (q, w) (by simp)
    simp only [insert]
    rw [if_neg (Str.lt_ne hq).symm, if_neg (by simp [Str.lt_asymm hq])]
    rw [ih (fun e he => h e (by simp [he]))]
    rfl

/-- Repeated insertion in list order (the loops at RawDatagram.cpp:59-62, 390-393, 466-472). -/
def insertAll (d : Dict V) (es : List (Str × V)) : Dict V := es.foldl (fun d e => insert e.1 e.2 d) d

theorem insertAll_sorted {d : Dict V} {es : List (Str × V)} (h : Sorted d) : Sorted (insertAll d es) := by
  induction es generalizing d with
  | nil => exact h
  | cons e es ih => exact ih (insert_sorted h)

theorem insertAll_of_sorted {d es : Dict V} (h : Sorted (d ++ es)) : insertAll d es = d ++ es := by
  induction es generalizing d with
  | nil => simp [insertAll]
  | cons e es ih =>
    obtain ⟨k, v⟩ := e
    simp only [insertAll, List.foldl_cons]
    rw [insert_append (v := v) (k := k)]
    · have := ih (d := d ++ [(k, v)]) (by simpa using h)
      simpa [insertAll] using this
    · intro x hx
      unfold Sorted at h
      rw [List.pairwise_append] at h
      exact h.2.2 x hx (k, v) (by simp)

theorem find_insertAll (k : Str) (d : Dict V) (es : List (Str × V)) :
    find k (insertAll d es) = match find k es.reverse with
      | some v => some v
      | none => find k d := by
  induction es generalizing d with
  | nil => simp [insertAll]
  | cons e es ih =>
    obtain ⟨q, v⟩ := e
    have hap : ∀ (a b : Dict V), find k (a ++ b) = match find k a with | some v => some v | none => find k b := by
      intro a b
      induction a with
      | nil => simp
      | cons x a iha => obtain ⟨r, w⟩ := x; simp only [List.cons_append, find]; split <;> simp_all
    simp only [insertAll, List.foldl_cons] at *
    rw [ih, List.reverse_cons, hap]
    cases h : find k es.reverse with
    | some w => simp
    | none => simp only [find, find_insert]; split <;> simp

theorem find_map {f : V → W} (k : Str) (d : Dict V) :
    find k (d.map (fun e => (e.1, f e.2))) = (find k d).map f := by
  induction d with
  | nil => simp
  | cons x d ih => obtain ⟨q, w⟩ := x; simp only [List.map_cons, find]; split <;> simp_all

theorem map_sorted {f : V → W} {d : Dict V} (h : Sorted d) : Sorted (d.map (fun e => (e.1, f e.2))) := by
  unfold Sorted at *
  rw [List.pairwise_map]
  exact h

theorem sorted_of_keys {d : Dict V} {e : Dict W} (h : d.map Prod.fst = e.map Prod.fst) (hd : Sorted d) : Sorted e := by
  unfold Sorted at *
  have := (List.pairwise_map (f := Prod.fst) (R := fun a b => Str.lt a b = true) (l := d)).mpr hd
  rw [h] at this
  exact List.pairwise_map.mp this

theorem insert_map {f : V → W} (k : Str) (v : V) (d : Dict V) :
    (insert k v d).map (fun e => (e.1, f e.2)) = insert k (f v) (d.map (fun e => (e.1, f e.2))) := by
  induction d with
  | nil => rfl
  | cons x d ih =>
    obtain ⟨q, w⟩ := x
    simp only [insert, List.map_cons]
    split
    · rfl
    · split
      · rfl
      · simp [ih]

theorem insertAll_map {f : V → W} (d es : Dict V) :
    (insertAll d es).map (fun e => (e.1, f e.2)) =
      insertAll (d.map (fun e => (e.1, f e.2))) (es.map (fun e => (e.1, f e.2))) := by
  induction es generalizing d with
  | nil => rfl
  | cons x es ih =>
    simp only [insertAll, List.foldl_cons, List.map_cons] at *
    rw [ih, insert_map]

theorem nodup_keys {d : Dict V} (h : Sorted d) : (d.map Prod.fst).Nodup := by
  unfold Sorted at h
  have := List.Pairwise.imp (fun {a b : Str × V} (h : Str.lt a.1 b.1 = true) => Str.lt_ne h) h
  exact List.pairwise_map.mpr this

end Dict
end LP
