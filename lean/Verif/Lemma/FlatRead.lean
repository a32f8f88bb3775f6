import Verif.Lemma.FlatBytes
/-! # Reading any bytes: it ends, it is bounded by the size, and bytes behind what is read do not matter -/
namespace LP.Flat

theorem rd_ok {b : Bytes} {p n : Nat} {w : Bytes} (h : rd b p n = .ok w) : p + n ≤ b.length := by
  unfold rd at h
  split at h
  · assumption
  · simp at h

theorem rd_fuel (b : Bytes) (p n : Nat) : rd b p n ≠ .fuel := by
  unfold rd; split <;> simp

theorem bind_fuel {α β : Type} {m : Rd α} {f : α → Rd β} (hm : m ≠ .fuel) (hf : ∀ a, m = .ok a → f a ≠ .fuel) : (m >>= f) ≠ .fuel := by
  cases m with
  | ok a => exact hf a rfl
  | outside => simp
  | fuel => exact absurd rfl hm

theorem bind_ok_iff {α β : Type} {m : Rd α} {f : α → Rd β} {x : β} : (m >>= f) = .ok x ↔ ∃ a, m = .ok a ∧ f a = .ok x := by
  cases m with
  | ok a => simp
  | outside => simp
  | fuel => simp

theorem uint_fuel (b : Bytes) (p n : Nat) : uint b p n ≠ .fuel := by
  unfold uint
  split
  · exact bind_fuel (rd_fuel _ _ _) (fun _ _ => by simp)
  · simp
theorem uint_ok {b : Bytes} {p n v : Nat} (h : uint b p n = .ok v) : p + n ≤ b.length := by
  unfold uint at h
  split at h
  · obtain ⟨w, h1, _⟩ := bind_ok_iff.mp h
    exact rd_ok h1
  · simp at h
theorem field_fuel (b : Bytes) (t vo : Nat) : field b t vo ≠ .fuel := by
  refine bind_fuel (uint_fuel _ _ _) (fun s _ => ?_)
  simp only
  split
  · simp
  · refine bind_fuel (uint_fuel _ _ _) (fun z _ => ?_)
    split
    · exact bind_fuel (uint_fuel _ _ _) (fun o _ => by simp)
    · simp
theorem field_ok {b : Bytes} {t vo : Nat} {r : Option Nat} (h : field b t vo = .ok r) : t + 4 ≤ b.length ∧ ∀ p, r = some p → t < p := by
  obtain ⟨s, h1, h2⟩ := bind_ok_iff.mp h
  refine ⟨uint_ok h1, fun p hp => ?_⟩
  simp only at h2
  split at h2
  · simp at h2
  · obtain ⟨z, _, h3⟩ := bind_ok_iff.mp h2
    split at h3
    · obtain ⟨o, _, h4⟩ := bind_ok_iff.mp h3
      simp only [Rd.pure_eq, Rd.ok.injEq] at h4
      split at h4
      · rw [← h4] at hp; simp at hp
      · rw [← h4] at hp; simp at hp; omega
    · simp only [Rd.pure_eq, Rd.ok.injEq] at h3
      rw [← h3] at hp; simp at hp
theorem scalar_fuel (b : Bytes) (t vo n : Nat) : scalar b t vo n ≠ .fuel := by
  refine bind_fuel (field_fuel _ _ _) (fun r _ => ?_)
  cases r with
  | none => simp
  | some p => exact uint_fuel _ _ _
theorem scalar_ok {b : Bytes} {t vo n v : Nat} (h : scalar b t vo n = .ok v) : t + 4 ≤ b.length := by
  obtain ⟨r, h1, _⟩ := bind_ok_iff.mp h
  exact (field_ok h1).1
theorem target_fuel (b : Bytes) (p : Nat) : target b p ≠ .fuel := bind_fuel (uint_fuel _ _ _) (fun _ _ => by simp)
theorem target_ok {b : Bytes} {p q : Nat} (h : target b p = .ok q) : p ≤ q := by
  obtain ⟨o, _, h2⟩ := bind_ok_iff.mp h
  simp at h2
  omega
theorem pointer_fuel (b : Bytes) (t vo : Nat) : pointer b t vo ≠ .fuel := by
  refine bind_fuel (field_fuel _ _ _) (fun r _ => ?_)
  cases r with
  | none => simp
  | some p => exact bind_fuel (target_fuel _ _) (fun _ _ => by simp)
theorem pointer_ok {b : Bytes} {t vo q : Nat} (h : pointer b t vo = .ok (some q)) : t < q := by
  obtain ⟨r, h1, h2⟩ := bind_ok_iff.mp h
  cases r with
  | none => simp at h2
  | some p =>
    obtain ⟨q', h3, h4⟩ := bind_ok_iff.mp h2
    simp at h4
    have := (field_ok h1).2 p rfl
    have := target_ok h3
    omega
theorem string_fuel (b : Bytes) (p : Nat) : string b p ≠ .fuel := bind_fuel (uint_fuel _ _ _) (fun _ _ => rd_fuel _ _ _)
theorem stringField_fuel (b : Bytes) (t vo : Nat) : stringField b t vo ≠ .fuel := by
  refine bind_fuel (pointer_fuel _ _ _) (fun r _ => ?_)
  cases r with
  | none => simp
  | some p => exact bind_fuel (string_fuel _ _) (fun _ _ => by simp)
theorem element_ok {b : Bytes} {p i q : Nat} (h : element b p i = .ok q) : p < q := by
  have := target_ok h
  omega

theorem each_fuel {β : Type} {f : Nat → Rd β} (h : ∀ i, f i ≠ .fuel) (is : List Nat) : Rd.each f is ≠ .fuel := by
  induction is with
  | nil => simp [Rd.each]
  | cons i is ih => exact bind_fuel (h i) (fun _ _ => bind_fuel ih (fun _ _ => by simp))

theorem each_mem {β : Type} {f : Nat → Rd β} : ∀ {is : List Nat} {l : List β}, Rd.each f is = .ok l → ∀ x ∈ l, ∃ i ∈ is, f i = .ok x := by
  intro is
  induction is with
  | nil => intro l h x hx; simp [Rd.each] at h; subst h; simp at hx
  | cons i is ih =>
    intro l h x hx
    obtain ⟨a, h1, h2⟩ := bind_ok_iff.mp h
    obtain ⟨as, h3, h4⟩ := bind_ok_iff.mp h2
    simp at h4
    subst h4
    rcases List.mem_cons.mp hx with rfl | hx
    · exact ⟨i, List.mem_cons_self, h1⟩
    · obtain ⟨j, hj, e⟩ := ih h3 x hx
      exact ⟨j, List.mem_cons_of_mem _ hj, e⟩

/-- Reading a datagram ends: every table lies behind the one that refers to it. -/
theorem datagram_fuel (b : Bytes) : ∀ (n t : Nat), 0 < n → b.length < n + t → datagram n b t ≠ .fuel := by
  intro n
  induction n with
  | zero => intro t h _; omega
  | succ n ih =>
    intro t _ ht
    refine bind_fuel (scalar_fuel _ _ _ _) (fun dt hdt => ?_)
    have hlen := scalar_ok hdt
    split
    · refine bind_fuel (scalar_fuel _ _ _ _) (fun vt _ => ?_)
      split
      · exact bind_fuel (stringField_fuel _ _ _) (fun _ _ => by simp)
      split
      · exact bind_fuel (scalar_fuel _ _ _ _) (fun _ _ => by simp)
      split
      · exact bind_fuel (scalar_fuel _ _ _ _) (fun _ _ => by simp)
      split
      · exact bind_fuel (scalar_fuel _ _ _ _) (fun _ _ => by simp)
      · simp
    split
    · refine bind_fuel (pointer_fuel _ _ _) (fun r hr => ?_)
      cases r with
      | none => simp
      | some q =>
        refine bind_fuel (uint_fuel _ _ _) (fun k _ => bind_fuel (each_fuel (fun i => ?_) _) (fun _ _ => by simp))
        refine bind_fuel (target_fuel _ _) (fun c hc => ih c (by omega) ?_)
        have := pointer_ok hr
        have := element_ok hc
        omega
    split
    · refine bind_fuel (pointer_fuel _ _ _) (fun r hr => ?_)
      cases r with
      | none => simp
      | some q =>
        refine bind_fuel (pointer_fuel _ _ _) (fun r' hr' => ?_)
        cases r' with
        | none => simp
        | some q' =>
          refine bind_fuel (uint_fuel _ _ _) (fun k _ => bind_fuel (uint_fuel _ _ _) (fun k' _ => bind_fuel (each_fuel (fun i => ?_) _) (fun _ _ => by simp)))
          refine bind_fuel (target_fuel _ _) (fun c hc => bind_fuel (string_fuel _ _) (fun s _ => bind_fuel (target_fuel _ _) (fun c' hc' =>
            bind_fuel (ih c' (by omega) ?_) (fun _ _ => by simp))))
          have := pointer_ok hr'
          have := element_ok hc'
          omega
    · simp

theorem depthL_le {l : List FB} {m : Nat} (h : ∀ f ∈ l, f.depth ≤ m) : FB.depth.depthL l ≤ m := by
  induction l with
  | nil => simp [FB.depth.depthL]
  | cons g l ih =>
    have h1 := h g List.mem_cons_self
    have h2 := ih (fun f hf => h f (List.mem_cons_of_mem _ hf))
    simp only [FB.depth.depthL]
    omega

/-- How deep a document can be nested. -/
theorem datagram_depth (b : Bytes) : ∀ (n t : Nat) (f : FB), datagram n b t = .ok f → t + f.depth ≤ b.length := by
  intro n
  induction n with
  | zero => intro t f h; simp [datagram] at h
  | succ n ih =>
    intro t f h
    obtain ⟨dt, hdt, h⟩ := bind_ok_iff.mp h
    have hlen := scalar_ok hdt
    split at h
    · obtain ⟨vt, _, h⟩ := bind_ok_iff.mp h
      split at h
      · obtain ⟨s, _, h⟩ := bind_ok_iff.mp h
        simp at h; subst h
        simp [FB.depth, FB.depth.depthO, FB.depth.depthL]; omega
      split at h
      · obtain ⟨s, _, h⟩ := bind_ok_iff.mp h
        simp at h; subst h
        simp [FB.depth, FB.depth.depthO, FB.depth.depthL]; omega
      split at h
      · obtain ⟨s, _, h⟩ := bind_ok_iff.mp h
        simp at h; subst h
        simp [FB.depth, FB.depth.depthO, FB.depth.depthL]; omega
      split at h
      · obtain ⟨s, _, h⟩ := bind_ok_iff.mp h
        simp at h; subst h
        simp [FB.depth, FB.depth.depthO, FB.depth.depthL]; omega
      · simp at h; subst h
        simp [FB.depth, FB.depth.depthO, FB.depth.depthL]; omega
    split at h
    · obtain ⟨r, hr, h⟩ := bind_ok_iff.mp h
      cases r with
      | none =>
        simp at h; subst h
        simp [FB.depth, FB.depth.depthO, FB.depth.depthL]; omega
      | some q =>
        obtain ⟨k, _, h⟩ := bind_ok_iff.mp h
        obtain ⟨xs, hxs, h⟩ := bind_ok_iff.mp h
        simp at h; subst h
        have : FB.depth.depthL xs ≤ b.length - t - 1 := depthL_le (fun g hg => by
          obtain ⟨i, _, hi⟩ := each_mem hxs g hg
          obtain ⟨c, hc, hd⟩ := bind_ok_iff.mp hi
          have h1 := ih c g hd
          have h2 := pointer_ok hr
          have h3 := element_ok hc
          omega)
        simp [FB.depth, FB.depth.depthO, FB.depth.depthL]; omega
    split at h
    · obtain ⟨r, hr, h⟩ := bind_ok_iff.mp h
      cases r with
      | none =>
        simp at h; subst h
        simp [FB.depth, FB.depth.depthO, FB.depth.depthL]; omega
      | some q =>
        obtain ⟨r', hr', h⟩ := bind_ok_iff.mp h
        cases r' with
        | none =>
          simp at h; subst h
          simp [FB.depth, FB.depth.depthO, FB.depth.depthL]; omega
        | some q' =>
          obtain ⟨k, _, h⟩ := bind_ok_iff.mp h
          obtain ⟨k', _, h⟩ := bind_ok_iff.mp h
          obtain ⟨xs, hxs, h⟩ := bind_ok_iff.mp h
          simp at h; subst h
          have : FB.depth.depthL (xs.map Prod.snd) ≤ b.length - t - 1 := depthL_le (fun g hg => by
            obtain ⟨p, hp, rfl⟩ := List.mem_map.mp hg
            obtain ⟨i, _, hi⟩ := each_mem hxs p hp
            obtain ⟨c, hc, hi⟩ := bind_ok_iff.mp hi
            obtain ⟨s, _, hi⟩ := bind_ok_iff.mp hi
            obtain ⟨c', hc', hi⟩ := bind_ok_iff.mp hi
            obtain ⟨g', hd, hi⟩ := bind_ok_iff.mp hi
            simp at hi
            have h1 := ih c' g' hd
            have h2 := pointer_ok hr'
            have h3 := element_ok hc'
            rw [← hi]
            simp only
            omega)
          simp [FB.depth, FB.depth.depthO, FB.depth.depthL]; omega
    · simp at h; subst h
      simp [FB.depth, FB.depth.depthO, FB.depth.depthL]; omega

/-! ## What stands behind does not matter -/

theorem rd_append {b : Bytes} {p n : Nat} {w : Bytes} (h : rd b p n = .ok w) (y : Bytes) : rd (b ++ y) p n = .ok w := by
  have hl := rd_ok h
  unfold rd at h ⊢
  rw [if_pos hl] at h
  rw [if_pos (by simp; omega), ← h]
  congr 1
  rw [List.drop_append_of_le_length (by omega), List.take_append_of_le_length (by simp; omega)]
theorem uint_append {b : Bytes} {p n v : Nat} (h : uint b p n = .ok v) (y : Bytes) : uint (b ++ y) p n = .ok v := by
  unfold uint at h ⊢
  split at h
  · rename_i ha
    rw [if_pos ha]
    obtain ⟨w, h1, h2⟩ := bind_ok_iff.mp h
    exact bind_ok_iff.mpr ⟨w, rd_append h1 y, h2⟩
  · simp at h
theorem field_append {b : Bytes} {t vo : Nat} {r : Option Nat} (h : field b t vo = .ok r) (y : Bytes) : field (b ++ y) t vo = .ok r := by
  obtain ⟨s, h1, h⟩ := bind_ok_iff.mp h
  refine bind_ok_iff.mpr ⟨s, uint_append h1 y, ?_⟩
  simp only at h ⊢
  split at h
  · simp at h
  · rename_i hc
    rw [if_neg hc]
    obtain ⟨z, h2, h⟩ := bind_ok_iff.mp h
    refine bind_ok_iff.mpr ⟨z, uint_append h2 y, ?_⟩
    split at h
    · rename_i hz
      rw [if_pos hz]
      obtain ⟨o, h3, h⟩ := bind_ok_iff.mp h
      exact bind_ok_iff.mpr ⟨o, uint_append h3 y, h⟩
    · rename_i hz
      rw [if_neg hz]
      exact h
theorem scalar_append {b : Bytes} {t vo n v : Nat} (h : scalar b t vo n = .ok v) (y : Bytes) : scalar (b ++ y) t vo n = .ok v := by
  obtain ⟨r, h1, h⟩ := bind_ok_iff.mp h
  refine bind_ok_iff.mpr ⟨r, field_append h1 y, ?_⟩
  cases r with
  | none => exact h
  | some p => exact uint_append h y
theorem target_append {b : Bytes} {p q : Nat} (h : target b p = .ok q) (y : Bytes) : target (b ++ y) p = .ok q := by
  obtain ⟨o, h1, h⟩ := bind_ok_iff.mp h
  exact bind_ok_iff.mpr ⟨o, uint_append h1 y, h⟩
theorem pointer_append {b : Bytes} {t vo : Nat} {r : Option Nat} (h : pointer b t vo = .ok r) (y : Bytes) : pointer (b ++ y) t vo = .ok r := by
  obtain ⟨s, h1, h⟩ := bind_ok_iff.mp h
  refine bind_ok_iff.mpr ⟨s, field_append h1 y, ?_⟩
  cases s with
  | none => exact h
  | some p =>
    obtain ⟨q, h2, h⟩ := bind_ok_iff.mp h
    exact bind_ok_iff.mpr ⟨q, target_append h2 y, h⟩
theorem string_append {b : Bytes} {p : Nat} {s : Str} (h : string b p = .ok s) (y : Bytes) : string (b ++ y) p = .ok s := by
  obtain ⟨o, h1, h⟩ := bind_ok_iff.mp h
  exact bind_ok_iff.mpr ⟨o, uint_append h1 y, rd_append h y⟩
theorem stringField_append {b : Bytes} {t vo : Nat} {r : Option Str} (h : stringField b t vo = .ok r) (y : Bytes) :
    stringField (b ++ y) t vo = .ok r := by
  obtain ⟨s, h1, h⟩ := bind_ok_iff.mp h
  refine bind_ok_iff.mpr ⟨s, pointer_append h1 y, ?_⟩
  cases s with
  | none => exact h
  | some p =>
    obtain ⟨q, h2, h⟩ := bind_ok_iff.mp h
    exact bind_ok_iff.mpr ⟨q, string_append h2 y, h⟩

theorem each_imp {β : Type} {f g : Nat → Rd β} (h : ∀ i x, f i = .ok x → g i = .ok x) : ∀ {is : List Nat} {l : List β},
    Rd.each f is = .ok l → Rd.each g is = .ok l := by
  intro is
  induction is with
  | nil => intro l hl; exact hl
  | cons i is ih =>
    intro l hl
    obtain ⟨a, h1, h2⟩ := bind_ok_iff.mp hl
    obtain ⟨as, h3, h4⟩ := bind_ok_iff.mp h2
    exact bind_ok_iff.mpr ⟨a, h i a h1, bind_ok_iff.mpr ⟨as, ih h3, h4⟩⟩

theorem datagram_append (b y : Bytes) : ∀ (n t : Nat) (f : FB), datagram n b t = .ok f → ∀ m, n ≤ m → datagram m (b ++ y) t = .ok f := by
  intro n
  induction n with
  | zero => intro t f h; simp [datagram] at h
  | succ n ih =>
    intro t f h m hm
    obtain ⟨m, rfl⟩ : ∃ k, m = k + 1 := ⟨m - 1, by omega⟩
    obtain ⟨dt, hdt, h⟩ := bind_ok_iff.mp h
    refine bind_ok_iff.mpr ⟨dt, scalar_append hdt y, ?_⟩
    split at h
    · rename_i hc
      rw [if_pos hc]
      obtain ⟨vt, hvt, h⟩ := bind_ok_iff.mp h
      refine bind_ok_iff.mpr ⟨vt, scalar_append hvt y, ?_⟩
      split at h
      · rename_i hc
        rw [if_pos hc]
        obtain ⟨s, hs, h⟩ := bind_ok_iff.mp h
        exact bind_ok_iff.mpr ⟨s, stringField_append hs y, h⟩
      rename_i hc
      rw [if_neg hc]
      split at h
      · rename_i hc
        rw [if_pos hc]
        obtain ⟨s, hs, h⟩ := bind_ok_iff.mp h
        exact bind_ok_iff.mpr ⟨s, scalar_append hs y, h⟩
      rename_i hc
      rw [if_neg hc]
      split at h
      · rename_i hc
        rw [if_pos hc]
        obtain ⟨s, hs, h⟩ := bind_ok_iff.mp h
        exact bind_ok_iff.mpr ⟨s, scalar_append hs y, h⟩
      rename_i hc
      rw [if_neg hc]
      split at h
      · rename_i hc
        rw [if_pos hc]
        obtain ⟨s, hs, h⟩ := bind_ok_iff.mp h
        exact bind_ok_iff.mpr ⟨s, scalar_append hs y, h⟩
      · rename_i hc
        rw [if_neg hc]
        exact h
    rename_i hc
    rw [if_neg hc]
    split at h
    · rename_i hc
      rw [if_pos hc]
      obtain ⟨r, hr, h⟩ := bind_ok_iff.mp h
      refine bind_ok_iff.mpr ⟨r, pointer_append hr y, ?_⟩
      cases r with
      | none => exact h
      | some q =>
        obtain ⟨k, hk, h⟩ := bind_ok_iff.mp h
        obtain ⟨xs, hxs, h⟩ := bind_ok_iff.mp h
        refine bind_ok_iff.mpr ⟨k, uint_append hk y, bind_ok_iff.mpr ⟨xs, each_imp (fun i x hi => ?_) hxs, h⟩⟩
        obtain ⟨c, hc, hd⟩ := bind_ok_iff.mp hi
        exact bind_ok_iff.mpr ⟨c, target_append hc y, ih c x hd m (by omega)⟩
    rename_i hc
    rw [if_neg hc]
    split at h
    · rename_i hc
      rw [if_pos hc]
      obtain ⟨r, hr, h⟩ := bind_ok_iff.mp h
      refine bind_ok_iff.mpr ⟨r, pointer_append hr y, ?_⟩
      cases r with
      | none => exact h
      | some q =>
        obtain ⟨r', hr', h⟩ := bind_ok_iff.mp h
        refine bind_ok_iff.mpr ⟨r', pointer_append hr' y, ?_⟩
        cases r' with
        | none => exact h
        | some q' =>
          obtain ⟨k, hk, h⟩ := bind_ok_iff.mp h
          obtain ⟨k', hk', h⟩ := bind_ok_iff.mp h
          obtain ⟨xs, hxs, h⟩ := bind_ok_iff.mp h
          refine bind_ok_iff.mpr ⟨k, uint_append hk y, bind_ok_iff.mpr ⟨k', uint_append hk' y, bind_ok_iff.mpr ⟨xs, each_imp (fun i x hi => ?_) hxs, h⟩⟩⟩
          obtain ⟨c, hc, hi⟩ := bind_ok_iff.mp hi
          obtain ⟨s, hs, hi⟩ := bind_ok_iff.mp hi
          obtain ⟨c', hc', hi⟩ := bind_ok_iff.mp hi
          obtain ⟨g', hd, hi⟩ := bind_ok_iff.mp hi
          exact bind_ok_iff.mpr ⟨c, target_append hc y, bind_ok_iff.mpr ⟨s, string_append hs y, bind_ok_iff.mpr ⟨c', target_append hc' y,
            bind_ok_iff.mpr ⟨g', ih c' g' hd m (by omega), hi⟩⟩⟩⟩
    · rename_i hc
      rw [if_neg hc]
      exact h

theorem message_fuel (b : Bytes) : message b ≠ .fuel := by
  refine bind_fuel (target_fuel _ _) (fun t ht => bind_fuel (stringField_fuel _ _ _) (fun s _ => bind_fuel (stringField_fuel _ _ _) (fun p _ =>
    bind_fuel (pointer_fuel _ _ _) (fun r hr => ?_))))
  cases r with
  | none => simp
  | some q => exact bind_fuel (datagram_fuel b _ q (by omega) (by omega)) (fun _ _ => by simp)

theorem message_append {b : Bytes} {f : FBM} (h : message b = .ok f) (y : Bytes) : message (b ++ y) = .ok f := by
  obtain ⟨t, h1, h⟩ := bind_ok_iff.mp h
  obtain ⟨s, h2, h⟩ := bind_ok_iff.mp h
  obtain ⟨p, h3, h⟩ := bind_ok_iff.mp h
  obtain ⟨r, h4, h⟩ := bind_ok_iff.mp h
  refine bind_ok_iff.mpr ⟨t, target_append h1 y, bind_ok_iff.mpr ⟨s, stringField_append h2 y, bind_ok_iff.mpr ⟨p, stringField_append h3 y,
    bind_ok_iff.mpr ⟨r, pointer_append h4 y, ?_⟩⟩⟩⟩
  cases r with
  | none => exact h
  | some q =>
    obtain ⟨d, h5, h⟩ := bind_ok_iff.mp h
    exact bind_ok_iff.mpr ⟨d, datagram_append b y _ q d h5 _ (by simp), h⟩

end LP.Flat
