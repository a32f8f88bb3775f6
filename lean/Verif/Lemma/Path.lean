import Verif.Lemma.Observe
/-! Positions in documents. -/
namespace LP
namespace Tree

theorem walk_editAt_self (u : Tree) : ∀ (ks : List Str) (t : Tree),
    editAt (ks.map .key) (eSet u) t = ((editAt (ks.map .key) (eSet u) t).1, none) ∧
      walk ks (editAt (ks.map .key) (eSet u) t).1 = some u := by
  intro ks
  induction ks with
  | nil => intro t; exact ⟨rfl, rfl⟩
  | cons k ks ih =>
    intro t
    obtain ⟨h1, h2⟩ := ih ((Dict.find k t.asDict).getD .empty)
    have h3 : (editAt (ks.map .key) (eSet u) ((Dict.find k t.asDict).getD .empty)).2 = none := by rw [h1]
    refine ⟨?_, ?_⟩
    · simp only [List.map_cons, editAt]; rw [h3]
    · simp only [List.map_cons, editAt, walk, Dict.find_insert_self, h2]

theorem components_join : ∀ (ks : List Str), (∀ k ∈ ks, slash ∉ k) → ks.getLast? ≠ some [] → components (joinSlash ks) = ks
  | [], _, _ => rfl
  | [k], h, hl => by
    have : k ≠ [] := by intro e; subst e; exact hl rfl
    exact components_none (h k (by simp)) this
  | k :: j :: r, h, hl => by
    have ih := components_join (j :: r) (fun k hk => h k (by simp only [List.mem_cons] at hk ⊢; exact Or.inr hk))
      (by rw [List.getLast?_cons_cons] at hl; exact hl)
    have : joinSlash (k :: j :: r) = k ++ slash :: joinSlash (j :: r) := by simp [joinSlash]
    rw [this, components_cons (h k (by simp)), ih]

theorem components_noslash : ∀ (n : Nat) (p : Str), p.length ≤ n → ∀ k ∈ components p, slash ∉ k := by
  have split : ∀ p : Str, ∀ k ∈ splitSlash p, slash ∉ k := by
    intro p
    induction p with
    | nil => simp [splitSlash]
    | cons c p ih =>
      simp only [splitSlash]
      split
      · simpa using ih
      · rename_i hc
        split
        · rename_i k ks e
          intro k' hk'
          simp only [List.mem_cons] at hk'
          rcases hk' with rfl | hk'
          · have := ih k (by rw [e]; simp)
            simp only [List.mem_cons, not_or]
            exact ⟨fun e => hc e.symm, this⟩
          · exact ih k' (by rw [e]; simp [hk'])
        · intro k hk; simp only [List.mem_singleton] at hk; subst hk
          simp only [List.mem_singleton]; exact fun e => hc e.symm
  intro n p _ k hk
  unfold components at hk
  split at hk
  · exact split p k ((List.dropLast_sublist _).subset hk)
  · exact split p k hk

theorem splitSlash_snoc (p : Str) : splitSlash (p ++ [slash]) = splitSlash p ++ [[]] := by
  induction p with
  | nil => rfl
  | cons c p ih =>
    simp only [List.cons_append, splitSlash, ih]
    split
    · rfl
    · cases h : splitSlash p with
      | nil => exact absurd h (splitSlash_ne p)
      | cons k ks => rfl

theorem splitSlash_last : ∀ (p : Str), p ≠ [] → (splitSlash p).getLast? = some [] → p.getLast? = some slash := by
  intro p
  induction p with
  | nil => intro h; exact absurd rfl h
  | cons c p ih =>
    intro _ hl
    simp only [splitSlash] at hl
    split at hl
    · rename_i hc
      by_cases hp : p = []
      · subst hp; simp [hc]
      · have hne := splitSlash_ne p
        obtain ⟨k, ks, hk⟩ := List.exists_cons_of_ne_nil hne
        rw [hk, List.getLast?_cons_cons, ← hk] at hl
        obtain ⟨d, q, rfl⟩ := List.exists_cons_of_ne_nil hp
        rw [List.getLast?_cons_cons]; exact ih hp hl
    · rename_i hc
      cases hs : splitSlash p with
      | nil => exact absurd hs (splitSlash_ne p)
      | cons k ks =>
        rw [hs] at hl
        cases ks with
        | nil => simp at hl
        | cons k2 ks =>
          simp only [List.getLast?_cons_cons] at hl
          have hp : p ≠ [] := by intro e; subst e; simp [splitSlash] at hs
          obtain ⟨d, q, rfl⟩ := List.exists_cons_of_ne_nil hp
          rw [List.getLast?_cons_cons]
          refine ih hp ?_
          rw [hs, List.getLast?_cons_cons]; exact hl

theorem components_snoc {p : Str} (hp : p ≠ []) (hl : p.getLast? ≠ some slash) : components (p ++ [slash]) = components p := by
  unfold components
  rw [splitSlash_snoc]
  have h1 : (splitSlash p ++ [[]]).getLast? = some [] := by simp
  have h2 : (splitSlash p).getLast? ≠ some [] := fun h => hl (splitSlash_last p hp h)
  rw [if_pos h1, if_neg h2]; simp

theorem lookup_map_key (ks : List Str) (t : Tree) : lookup (ks.map .key) t = walk ks t := by
  induction ks generalizing t with
  | nil => rfl
  | cons k ks ih =>
    cases t <;> simp only [List.map_cons, lookup, walk, asDict, Dict.find_nil, Option.bind_none]
    rename_i ds
    cases h : Dict.find k ds <;> simp [ih]

theorem lookup_empty {q : List Sel} (h : q ≠ []) : lookup q .empty = none := by
  cases q with
  | nil => exact absurd rfl h
  | cons a q => cases a <;> simp [lookup, asDict, asList]

theorem asDict_dict (ds : List (Str × Tree)) : (Tree.dict ds).asDict = ds := rfl
theorem asList_list (ts : List Tree) : (Tree.list ts).asList = ts := rfl

theorem lookup_editAt_diverge (F : Edit) : ∀ (c p q : List Sel) (t : Tree), Diverge p q →
    lookup (c ++ q) (editAt (c ++ p) F t).1 = lookup (c ++ q) t := by
  suffices h : ∀ (c p' q' : List Sel) (a b : Sel) (t : Tree),
      ((∃ k j, k ≠ j ∧ a = .key k ∧ b = .key j) ∨ (∃ i j, i ≠ j ∧ a = .idx i ∧ b = .idx j)) →
      lookup (c ++ b :: q') (editAt (c ++ a :: p') F t).1 = lookup (c ++ b :: q') t by
    intro c p q t hd
    obtain ⟨c', p', q', h1 | h1⟩ := hd
    · obtain ⟨k, j, hne, rfl, rfl⟩ := h1
      rw [← List.append_assoc, ← List.append_assoc]
      exact h (c ++ c') p' q' (.key k) (.key j) t (Or.inl ⟨k, j, hne, rfl, rfl⟩)
    · obtain ⟨k, j, hne, rfl, rfl⟩ := h1
      rw [← List.append_assoc, ← List.append_assoc]
      exact h (c ++ c') p' q' (.idx k) (.idx j) t (Or.inr ⟨k, j, hne, rfl, rfl⟩)
  intro c
  induction c with
  | nil =>
    intro p' q' a b t hab
    rcases hab with ⟨k, j, hne, rfl, rfl⟩ | ⟨i, j, hne, rfl, rfl⟩
    · simp only [List.nil_append, editAt, lookup, asDict_dict]
      rw [Dict.find_insert_ne hne]
    · have hn : i.toNat ≠ j.toNat := fun e => hne (BitVec.eq_of_toNat_eq e)
      simp only [List.nil_append, editAt, lookup]
      cases h : t.asList[i.toNat]? with
      | none => simp only [asList_list]
      | some u => simp only [asList_list]; rw [List.getElem?_set_ne hn]
  | cons x c ih =>
    intro p' q' a b t hab
    cases x with
    | key k =>
      simp only [List.cons_append, editAt, lookup, asDict_dict, Dict.find_insert_self, Option.bind_some]
      rw [ih p' q' a b _ hab]
      have hq : c ++ b :: q' ≠ [] := by simp
      cases h : Dict.find k t.asDict with
      | none => simp only [Option.getD_none, lookup_empty hq, Option.bind_none]
      | some u => simp only [Option.getD_some, Option.bind_some]
    | idx i =>
      simp only [List.cons_append, editAt, lookup]
      cases h : t.asList[i.toNat]? with
      | none => simp only [asList_list, h]
      | some u =>
        have hlt : i.toNat < t.asList.length := by
          rw [List.getElem?_eq_some_iff] at h; exact h.1
        simp only [asList_list]
        rw [List.getElem?_set_self hlt]
        simp only [Option.bind_some]
        exact ih p' q' a b _ hab

theorem diverge_keys {ks js : List Str} (h : ∃ c k j ks' js', k ≠ j ∧ ks = c ++ k :: ks' ∧ js = c ++ j :: js') :
    Diverge (ks.map .key) (js.map .key) := by
  obtain ⟨c, k, j, ks', js', hne, rfl, rfl⟩ := h
  exact ⟨c.map .key, ks'.map .key, js'.map .key, Or.inl ⟨k, j, hne, by simp, by simp⟩⟩

end Tree
end LP
