import Verif.Model.Uuid
/-!
# UUIDs (C70, C71)
-/
namespace LP.Uuid

/-! ## The form a UUID string should have -/

/-- A lower-case hex digit. -/
def IsHex (c : UInt8) : Prop := (48 ≤ c ∧ c ≤ 57) ∨ (97 ≤ c ∧ c ≤ 102)

instance (c : UInt8) : Decidable (IsHex c) := by unfold IsHex; infer_instance

/-- A non-empty group of lower-case hex digits. -/
def Group (s : Str) : Prop := s ≠ [] ∧ ∀ c ∈ s, IsHex c

/-- Five groups separated by '-', the third with four digits beginning with 4, the fourth with four digits beginning
with 8, 9, a or b. -/
def WellFormed (s : Str) : Prop :=
  ∃ g₁ g₂ g₃ g₄ g₅, s = g₁ ++ bs "-" ++ g₂ ++ bs "-" ++ g₃ ++ bs "-" ++ g₄ ++ bs "-" ++ g₅ ∧
    Group g₁ ∧ Group g₂ ∧ Group g₃ ∧ Group g₄ ∧ Group g₅ ∧
    g₃.length = 4 ∧ g₃.head? = some 52 ∧ g₄.length = 4 ∧ ∃ x ∈ bs "89ab", g₄.head? = some x

/-! ## Hex numbers -/

theorem hexDigit_isHex (n : Nat) (h : n < 16) : IsHex (hexDigit n) := by
  have : ∀ m : Fin 16, IsHex (hexDigit m) := by decide
  exact this ⟨n, h⟩

theorem hex_group (n : Nat) : Group (hex n) := by
  induction n using Nat.strongRecOn with
  | _ n ih =>
    rw [hex]
    split
    · rename_i h
      exact ⟨by simp, by simpa using hexDigit_isHex n h⟩
    · rename_i h
      obtain ⟨_, h2⟩ := ih (n / 16) (by omega)
      refine ⟨by simp, ?_⟩
      intro c hc
      rcases List.mem_append.1 hc with hc | hc
      · exact h2 c hc
      · simp at hc; subst hc; exact hexDigit_isHex _ (Nat.mod_lt _ (by omega))

theorem hex_length_le (k : Nat) : ∀ n, n < 16 ^ (k + 1) → (hex n).length ≤ k + 1 := by
  induction k with
  | zero => intro n h; rw [hex, if_pos (by simpa using h)]; simp
  | succ k ih =>
    intro n h
    rw [hex]
    split
    · simp
    · have : n / 16 < 16 ^ (k + 1) := by
        rw [Nat.div_lt_iff_lt_mul (by omega)]
        rw [Nat.pow_succ] at h; exact h
      have := ih _ this
      simp; omega

/-- A number with exactly four hex digits. -/
theorem hex_four (n : Nat) (h1 : 0x1000 ≤ n) (h2 : n < 0x10000) :
    hex n = [hexDigit (n / 4096), hexDigit (n / 256 % 16), hexDigit (n / 16 % 16), hexDigit (n % 16)] := by
  rw [hex, if_neg (by omega), hex, if_neg (by omega), hex, if_neg (by omega), hex, if_pos (by omega)]
  have e : n / 16 / 16 / 16 = n / 4096 := by omega
  have e' : n / 16 / 16 % 16 = n / 256 % 16 := by omega
  simp [e, e']

theorem group_append {s t : Str} (hs : Group s) (ht : Group t) : Group (s ++ t) := by
  refine ⟨by simp [hs.1], ?_⟩
  intro c hc
  rcases List.mem_append.1 hc with hc | hc
  · exact hs.2 c hc
  · exact ht.2 c hc

theorem third_range (d : UInt32) : ((d &&& 0x0fff) ||| 0x4000).toNat = 0x4000 + d.toNat % 4096 := by
  have h : d.toNat % 4096 < 2 ^ 14 := by omega
  have e := Nat.two_pow_add_eq_or_of_lt (i := 14) (b := d.toNat % 4096) h 1
  have e2 : d.toNat &&& 4095 = d.toNat % 4096 := Nat.and_two_pow_sub_one_eq_mod d.toNat 12
  simp only [UInt32.toNat_or, UInt32.toNat_and, UInt32.reduceToNat, e2]
  rw [Nat.or_comm]
  simpa using e.symm

theorem fourth_range (d : UInt32) : (d % 0x3fff + 0x8000).toNat = d.toNat % 0x3fff + 0x8000 := by
  simp only [UInt32.toNat_add, UInt32.toNat_mod, UInt32.reduceToNat]
  omega

/-! ## C70 -/

theorem format_wellFormed (x : Draws) : WellFormed (format x) := by
  have h3 : 0x1000 ≤ ((x.d &&& 0x0fff) ||| 0x4000).toNat ∧ ((x.d &&& 0x0fff) ||| 0x4000).toNat < 0x10000 ∧
      ((x.d &&& 0x0fff) ||| 0x4000).toNat / 4096 = 4 := by rw [third_range]; omega
  have h4 : 0x1000 ≤ (x.e % 0x3fff + 0x8000).toNat ∧ (x.e % 0x3fff + 0x8000).toNat < 0x10000 ∧
      8 ≤ (x.e % 0x3fff + 0x8000).toNat / 4096 ∧ (x.e % 0x3fff + 0x8000).toNat / 4096 < 12 := by rw [fourth_range]; omega
  refine ⟨_, _, _, _, _, ?_, group_append (hex_group x.a.toNat) (hex_group x.b.toNat), hex_group x.c.toNat,
    hex_group ((x.d &&& 0x0fff) ||| 0x4000).toNat, hex_group (x.e % 0x3fff + 0x8000).toNat,
    group_append (group_append (hex_group x.f.toNat) (hex_group x.g.toNat)) (hex_group x.h.toNat), ?_, ?_, ?_, ?_⟩
  · have : bs "-" = [45] := by decide
    simp [format, this]
  · rw [hex_four _ h3.1 h3.2.1]; rfl
  · rw [hex_four _ h3.1 h3.2.1, h3.2.2]; rfl
  · rw [hex_four _ h4.1 h4.2.1]; rfl
  · rw [hex_four _ h4.1 h4.2.1]
    have : ∀ m : Fin 12, 8 ≤ m.val → hexDigit m.val ∈ bs "89ab" := by decide
    exact ⟨_, this ⟨_, h4.2.2.2⟩ h4.2.2.1, rfl⟩

theorem format_length (x : Draws) : (format x).length ≤ 60 := by
  have l8 : ∀ u : UInt32, (hex u.toNat).length ≤ 8 := fun u => hex_length_le 7 _ (by have := u.toNat_lt; simpa using this)
  have l4 : ∀ u : UInt32, u.toNat < 0x10000 → (hex u.toNat).length ≤ 4 := fun u h => hex_length_le 3 _ (by simpa using h)
  have h3 := l4 ((x.d &&& 0x0fff) ||| 0x4000) (by rw [third_range]; omega)
  have h4 := l4 (x.e % 0x3fff + 0x8000) (by rw [fourth_range]; omega)
  have := l8 x.a; have := l8 x.b; have := l8 x.c; have := l8 x.f; have := l8 x.g; have := l8 x.h
  simp only [format, List.length_append, List.length_cons, List.length_nil]
  omega

theorem format_no_nul (x : Draws) : ∀ c ∈ format x, (c != 0) = true := by
  have hz : ∀ n : Nat, ∀ c ∈ hex n, (c != 0) = true := by
    intro n c hc
    have := (hex_group n).2 c hc
    rcases this with h | h <;> · have h1 := h.1; rw [UInt8.le_iff_toNat_le] at h1; simp; intro e; subst e; simp at h1
  intro c hc
  simp only [format, List.mem_append, List.mem_singleton] at hc
  rcases hc with ((((((((((h | h) | h) | h) | h) | h) | h) | h) | h) | h) | h) | h
  all_goals first
    | exact hz _ c h
    | (subst h; decide)

theorem takeWhile_all {p : UInt8 → Bool} {s : Str} (h : ∀ c ∈ s, p c = true) : s.takeWhile p = s := by
  induction s with
  | nil => rfl
  | cons a s ih =>
    rw [List.takeWhile_cons, if_pos (h a List.mem_cons_self), ih (fun c hc => h c (List.mem_cons_of_mem _ hc))]

/-- Every generated UUID has the promised form; nothing is cut off, because the text has at most 60 characters and the
buffer 128. -/
theorem C70_well_formed (x : Draws) : WellFormed (create x).content ∧ (create x).content = format x ∧
    (create x).content.length ≤ 60 ∧ (create x).isEmpty = false := by
  have e : (create x).content = format x := by
    simp only [create]
    rw [List.take_of_length_le (by have := format_length x; omega)]
    exact takeWhile_all (format_no_nul x)
  rw [e]
  exact ⟨format_wellFormed x, rfl, format_length x, rfl⟩

/-- The fourth group lies between 8000 and bffe; the end of the documented range, bfff, does not occur. -/
theorem C70_fourth_group_range (x : Draws) : 0x8000 ≤ (x.e % 0x3fff + 0x8000).toNat ∧ (x.e % 0x3fff + 0x8000).toNat ≤ 0xbffe := by
  rw [fourth_range]; omega

example : (create ⟨1, 0xffffffff, 0x1f, 0x1234, 0xffff, 7, 8, 9⟩).content = bs "1ffffffff-1f-4234-8003-789" ∧
    Draws.possible ⟨1, 0xffffffff, 0x1f, 0x1234, 0xffff, 7, 8, 9⟩ := by decide +kernel

/-! ## C71 -/

/-- Missing padding: two different results of the random generator give the same UUID. -/
theorem C71_different_draws_same_uuid : ∃ x y : Draws, x.possible ∧ y.possible ∧ x ≠ y ∧ (x.a, x.b) ≠ (y.a, y.b) ∧
    create x = create y :=
  ⟨⟨0x1, 0x11, 1, 1, 1, 1, 1, 1⟩, ⟨0x11, 0x1, 1, 1, 1, 1, 1, 1⟩, by decide +kernel⟩

/-- A list without repetitions is no longer than one that contains all its elements. -/
theorem nodup_length_le {α : Type} {l m : List α} (hn : l.Nodup) (hs : ∀ a ∈ l, a ∈ m) : l.length ≤ m.length := by
  induction l generalizing m with
  | nil => simp
  | cons a l ih =>
    obtain ⟨s, t, e⟩ := List.append_of_mem (hs a List.mem_cons_self)
    rw [List.nodup_cons] at hn
    have : l.length ≤ (s ++ t).length := ih hn.2 (by
      intro b hb
      have := hs b (List.mem_cons_of_mem _ hb)
      rw [e] at this
      rcases List.mem_append.1 this with h | h
      · exact List.mem_append_left _ h
      · rcases List.mem_cons.1 h with rfl | h
        · exact absurd hb hn.1
        · exact List.mem_append_right _ h)
    rw [e]
    simp at this ⊢
    omega

theorem few_values {N : Nat} (f : Nat → Uuid) (ids : List Uuid) (hids : ∀ u ∈ ids, ∃ n, n < N ∧ u = f n) (hn : ids.Nodup) :
    ids.length ≤ N := by
  have := nodup_length_le (m := (List.range N).map f) hn (by
    intro u hu
    obtain ⟨n, h, rfl⟩ := hids u hu
    exact List.mem_map.2 ⟨n, List.mem_range.2 h, rfl⟩)
  simpa using this

/-- The generator is seeded with one 32-bit number per UUID: whatever the generator and the distribution compute from
the seed, among any 2^32 + 1 UUIDs two are equal. -/
theorem C71_only_2_32_uuids (gen : UInt32 → Draws) (ids : List Uuid) (hids : ∀ u ∈ ids, ∃ seed, u = create (gen seed))
    (hl : 2 ^ 32 < ids.length) : ¬ ids.Nodup := by
  intro hn
  have := few_values (N := 2 ^ 32) (fun n => create (gen n.toUInt32)) ids (by
    intro u hu
    obtain ⟨seed, rfl⟩ := hids u hu
    exact ⟨seed.toNat, seed.toNat_lt, by simp⟩) hn
  exact absurd hl (Nat.not_lt.2 this)

theorem long_list (N : Nat) : ∃ ids : List Uuid, N < ids.length ∧ ∀ u ∈ ids, u = create ⟨7, 1, 1, 1, 1, 1, 1, 1⟩ :=
  ⟨List.replicate (N + 1) (create ⟨7, 1, 1, 1, 1, 1, 1, 1⟩), by simp, fun _ hu => (List.mem_replicate.1 hu).2⟩

example : ∃ ids : List Uuid, 2 ^ 32 < ids.length ∧ ∀ u ∈ ids, ∃ seed : UInt32, u = create ((fun s => ⟨s, 1, 1, 1, 1, 1, 1, 1⟩) seed) := by
  obtain ⟨ids, h1, h2⟩ := long_list (2 ^ 32)
  exact ⟨ids, h1, fun u hu => ⟨7, h2 u hu⟩⟩

/-- Comparison: two empty UUIDs are equal, an empty and a generated one never, two generated ones exactly when their
texts are equal. -/
theorem C71_comparison (x y : Draws) : Uuid.eq empty empty = true ∧ Uuid.eq empty (create x) = false ∧
    Uuid.eq (create x) empty = false ∧ (Uuid.eq (create x) (create y) = true ↔ format x = format y) := by
  refine ⟨rfl, rfl, rfl, ?_⟩
  have ex := (C70_well_formed x).2.1
  have ey := (C70_well_formed y).2.1
  simp only [Uuid.eq, create] at ex ey ⊢
  simp [ex, ey]

end LP.Uuid
