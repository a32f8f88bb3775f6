import Verif.Lemma.Query
import Verif.Lemma.Ieee
import Batteries.Data.List.Perm
/-! The code's `==` decides `Same`. -/
namespace LP
open Heap Tree

theorem equals_iff (v w : Val) : Val.equals v w = true ↔ ValSame v w := by
  constructor
  · intro h
    cases v <;> cases w <;> simp only [Val.equals, Bool.and_eq_true, beq_iff_eq, Bool.false_eq_true] at h
    · subst h; exact .str _
    · subst h; exact .int _
    · obtain ⟨h1, h2⟩ := (Ieee.feq_iff _ _).1 h
      exact .dbl _ _ h1 h2
    · subst h; exact .bool _
    · obtain ⟨rfl, rfl⟩ := h; exact .other _ _
  · intro h
    cases h with
    | str => simp [Val.equals]
    | int => simp [Val.equals]
    | bool => simp [Val.equals]
    | other => simp [Val.equals]
    | dbl d e h1 h2 => exact (Ieee.feq_iff d e).2 ⟨h1, h2⟩

theorem ValSame.symm {v w : Val} (h : ValSame v w) : ValSame w v := by
  cases h with
  | str => exact .str _
  | int => exact .int _
  | bool => exact .bool _
  | other => exact .other _ _
  | dbl d e h1 h2 => exact .dbl e d h1.symm (h1 ▸ h2)

theorem ValSame.trans {v w x : Val} (h : ValSame v w) (h' : ValSame w x) : ValSame v x := by
  cases h with
  | dbl d e h1 h2 => cases h' with | dbl _ f h3 h4 => exact .dbl _ _ (h1.trans h3) h2
  | _ => cases h' <;> first | exact .str _ | exact .int _ | exact .bool _ | exact .other _ _

theorem Same.symm {t u : Tree} (h : Same t u) : Same u t := by
  induction h with
  | empty => exact .empty
  | value h => exact .value h.symm
  | list hl _ ih => exact .list hl.symm (fun i t u h1 h2 => ih i u t h2 h1)
  | dict hk _ ih => exact .dict (fun k => (hk k).symm) (fun k t u h1 h2 => ih k u t h2 h1)

theorem Same.trans {t u : Tree} (h : Same t u) : ∀ {v : Tree}, Same u v → Same t v := by
  induction h with
  | empty => intro v h; exact h
  | value h => intro v h'; cases h' with | value h' => exact .value (h.trans h')
  | @list ts us hl _ ih =>
    intro v h'
    cases h' with
    | @list _ vs hl' h' =>
      refine .list (hl.trans hl') ?_
      intro i t v h1 h2
      have : i < us.length := by
        rw [List.getElem?_eq_some_iff] at h1; obtain ⟨h3, _⟩ := h1; omega
      exact ih i t us[i] h1 (List.getElem?_eq_getElem this) (h' i _ v (List.getElem?_eq_getElem this) h2)
  | @dict ds es hk _ ih =>
    intro v h'
    cases h' with
    | @dict _ fs hk' h' =>
      refine .dict (fun k => (hk k).trans (hk' k)) ?_
      intro k t v h1 h2
      have : (Dict.find k es).isSome = true := by rw [← hk k, h1]; rfl
      obtain ⟨u, hu⟩ := Option.isSome_iff_exists.mp this
      exact ih k t u h1 hu (h' k u v hu h2)

/-- Pointwise comparison of lists of documents in the order the code uses. -/
theorem eqList_rep {h : Heap} {S S' : Addr → Prop} (sub : Nat → Nat → M Heap Bool) :
    ∀ (ts us : List Tree) (ps qs : List Ptr), ts.length = us.length → RepL h S ts ps → RepL h S' us qs →
    (∀ t ∈ ts, ∀ u ∈ us, ∀ a b, Rep h S t a → Rep h S' u b → ∃ r, sub a b h = .ok r h ∧ (r = true ↔ Same t u)) →
    ∃ r, eqList sub ps qs h = .ok r h ∧ (r = true ↔ ∀ (i : Nat) t u, ts[i]? = some t → us[i]? = some u → Same t u) := by
  intro ts
  induction ts with
  | nil => intro us ps qs _ hp _ _; simp only [RepL] at hp; subst hp; exact ⟨true, rfl, by simp⟩
  | cons t ts ih =>
    intro us ps qs hl hp hq hsub
    cases us with
    | nil => simp at hl
    | cons u us =>
      obtain ⟨a, ps, rfl, ha, hp⟩ := hp
      obtain ⟨b, qs, rfl, hb, hq⟩ := hq
      obtain ⟨r, hr, hri⟩ := hsub t (by simp) u (by simp) a b ha hb
      simp only [eqList, M.bind_run, deref_some, hr]
      cases r with
      | false =>
        refine ⟨false, by simp, ?_⟩
        simp only [Bool.false_eq_true, false_iff] at hri ⊢
        intro hh; exact hri (hh 0 t u rfl rfl)
      | true =>
        obtain ⟨r2, hr2, hri2⟩ := ih us ps qs (by simpa using hl) hp hq (fun t ht u hu => hsub t (by simp [ht]) u (by simp [hu]))
        refine ⟨r2, by simp [hr2], ?_⟩
        rw [hri2]
        constructor
        · intro hh i; cases i with
          | zero => intro t' u' h1 h2; simp at h1 h2; subst h1 h2; exact hri.mp rfl
          | succ i => intro t' u' h1 h2; exact hh i t' u' (by simpa using h1) (by simpa using h2)
        · intro hh i t' u' h1 h2; exact hh (i + 1) t' u' (by simpa using h1) (by simpa using h2)

theorem eqDict_rep {h : Heap} {S S' : Addr → Prop} (sub : Nat → Nat → M Heap Bool) (es : List (Str × Tree)) (rhs : Dict Ptr)
    (hrhs : RepD h S' es rhs) :
    ∀ (ds : List (Str × Tree)) (d : Dict Ptr), RepD h S ds d →
    (∀ e ∈ ds, ∀ f ∈ es, ∀ a b, Rep h S e.2 a → Rep h S' f.2 b → ∃ r, sub b a h = .ok r h ∧ (r = true ↔ Same e.2 f.2)) →
    ∃ r, eqDict sub d rhs h = .ok r h ∧
      (r = true ↔ ∀ e ∈ ds, ∃ u, Dict.find e.1 es = some u ∧ Same e.2 u) := by
  intro ds
  induction ds with
  | nil => intro d hd _; simp only [RepD] at hd; subst hd; exact ⟨true, rfl, by simp⟩
  | cons e ds ih =>
    intro d hd hsub
    obtain ⟨k, t⟩ := e
    obtain ⟨a, d, rfl, ha, hd⟩ := hd
    simp only [eqDict]
    cases hf : Dict.find k es with
    | none =>
      rw [hrhs.find_none hf]
      refine ⟨false, rfl, ?_⟩
      simp only [Bool.false_eq_true, false_iff]
      intro hh; obtain ⟨u, hu, _⟩ := hh (k, t) (by simp); simp only at hu; rw [hf] at hu; cases hu
    | some u =>
      obtain ⟨b, hb, hrb⟩ := hrhs.find_some hf
      obtain ⟨r, hr, hri⟩ := hsub (k, t) (by simp) (k, u) (Dict.find_some_mem hf) a b ha hrb
      simp only [hb, M.bind_run, deref_some, hr]
      cases r with
      | false =>
        refine ⟨false, by simp, ?_⟩
        simp only [Bool.false_eq_true, false_iff] at hri ⊢
        intro hh; obtain ⟨u', hu', hs⟩ := hh (k, t) (by simp)
        simp only at hu'; rw [hf] at hu'; cases hu'; exact hri hs
      | true =>
        obtain ⟨r2, hr2, hri2⟩ := ih d hd (fun t ht => hsub t (by simp [ht]))
        refine ⟨r2, by simp [hr2], ?_⟩
        rw [hri2]
        simp only [List.mem_cons, forall_eq_or_imp]
        exact ⟨fun hh => ⟨⟨u, hf, hri.mp rfl⟩, hh⟩, fun hh => hh.2⟩

theorem keys_subset_of_length {ds es : List (Str × Tree)} (hd : Dict.Sorted (V := Tree) ds) (he : Dict.Sorted (V := Tree) es)
    (hl : ds.length = es.length) (hsub : ∀ e ∈ ds, (Dict.find e.1 es).isSome) : ∀ k, (Dict.find k ds).isSome = (Dict.find k es).isSome := by
  have key_mem : ∀ (fs : List (Str × Tree)), Dict.Sorted (V := Tree) fs → ∀ k, (Dict.find k fs).isSome = true ↔ k ∈ fs.map Prod.fst := by
    intro fs hs k
    rw [Option.isSome_iff_exists, List.mem_map]
    constructor
    · rintro ⟨u, hu⟩; exact ⟨(k, u), Dict.find_some_mem hu, rfl⟩
    · rintro ⟨⟨k', u⟩, hm, rfl⟩; exact ⟨u, Dict.mem_find hs hm⟩
  have hsub' : ds.map Prod.fst ⊆ es.map Prod.fst := by
    intro k hk
    rw [List.mem_map] at hk
    obtain ⟨e, he', rfl⟩ := hk
    exact (key_mem es he _).mp (hsub e he')
  have hperm : (ds.map Prod.fst).Perm (es.map Prod.fst) :=
    (List.subperm_of_subset (Dict.nodup_keys hd) hsub').perm_of_length_le (by simp [hl])
  intro k
  rw [Bool.eq_iff_iff, key_mem ds hd, key_mem es he]
  exact hperm.mem_iff

theorem eq_rep {h : Heap} : ∀ (n : Nat) (t u : Tree) (S S' : Addr → Prop) (a b : Nat), t.depth ≤ n ∨ u.depth ≤ n → Rep h S t a → Rep h S' u b →
    ∃ r, Heap.eq n a b h = .ok r h ∧ (r = true ↔ Same t u) := by
  intro n
  induction n with
  | zero => intro t u _ _ _ _ hd; have := depth_pos t; have := depth_pos u; omega
  | succ n ih =>
    intro t u S S' a b hd ha hb
    simp only [Heap.eq, M.bind_run, M.get_run, ha.node_ty, hb.node_ty]
    by_cases hk : u.kind = t.kind
    case neg =>
      simp only [hk, if_false]
      refine ⟨false, rfl, ?_⟩
      simp only [Bool.false_eq_true, false_iff]
      intro hs; cases hs <;> simp [kind] at hk
    simp only [hk, if_true]
    cases t with
    | empty => cases u <;> simp [kind] at hk; exact ⟨true, rfl, by simp; exact .empty⟩
    | value v =>
      cases u <;> simp [kind] at hk
      rename_i w
      simp only [Rep] at ha hb
      simp only [kind, ha.2, hb.2]
      refine ⟨Val.equals w v, rfl, ?_⟩
      rw [equals_iff]
      exact ⟨fun h => .value h.symm, fun h => by cases h with | value h => exact h.symm⟩
    | list ts =>
      cases u <;> simp [kind] at hk
      rename_i us
      obtain ⟨_, ps, hn, hr⟩ := ha
      obtain ⟨_, qs, hn', hr'⟩ := hb
      have hl := (RepL_iff.mp hr).1
      have hl' := (RepL_iff.mp hr').1
      simp only [kind, hn, hn', hl, hl']
      by_cases hlen : us.length = ts.length
      · simp only [hlen, if_true]
        obtain ⟨r, hrr, hri⟩ := eqList_rep (Heap.eq n) ts us ps qs hlen.symm hr hr' (by
          intro t ht u hu a b h1 h2
          have := depth_mem_list ht
          have := depth_mem_list hu
          simp only [depth] at hd
          exact ih t u S S' a b (by omega) h1 h2)
        refine ⟨r, hrr, ?_⟩
        rw [hri]
        exact ⟨fun h => .list hlen.symm h, fun h => by cases h with | list _ h => exact h⟩
      · simp only [hlen, if_false]
        refine ⟨false, rfl, ?_⟩
        simp only [Bool.false_eq_true, false_iff]
        intro hs; cases hs with | list h _ => exact hlen h.symm
    | dict ds =>
      cases u <;> simp [kind] at hk
      rename_i es
      obtain ⟨_, d, hn, hs, hr⟩ := ha
      obtain ⟨_, d', hn', hs', hr'⟩ := hb
      have hl : d.length = ds.length := by have := (RepL_iff.mp (RepD_iff.mp hr).2).1; simpa using this
      have hl' : d'.length = es.length := by have := (RepL_iff.mp (RepD_iff.mp hr').2).1; simpa using this
      have hsd := Rep.dict_sorted hs hr
      have hse := Rep.dict_sorted hs' hr'
      simp only [kind, hn, hn', hl, hl']
      have key_mem : ∀ (fs : List (Str × Tree)), Dict.Sorted (V := Tree) fs → ∀ k, (Dict.find k fs).isSome = true ↔ k ∈ fs.map Prod.fst := by
        intro fs hs k
        rw [Option.isSome_iff_exists, List.mem_map]
        constructor
        · rintro ⟨u, hu⟩; exact ⟨(k, u), Dict.find_some_mem hu, rfl⟩
        · rintro ⟨⟨k', u⟩, hm, rfl⟩; exact ⟨u, Dict.mem_find hs hm⟩
      by_cases hlen : es.length = ds.length
      · simp only [hlen, if_true]
        obtain ⟨r, hrr, hri⟩ := eqDict_rep (Heap.eq n) es d' hr' ds d hr (by
          intro e he f hf a b h1 h2
          have := depth_mem_dict he
          have := depth_mem_dict hf
          simp only [depth] at hd
          obtain ⟨r, hr, hri⟩ := ih f.2 e.2 S' S b a (by omega) h2 h1
          exact ⟨r, hr, hri.trans ⟨Same.symm, Same.symm⟩⟩)
        refine ⟨r, hrr, ?_⟩
        rw [hri]
        constructor
        · intro hh
          refine .dict (keys_subset_of_length hsd hse hlen.symm ?_) ?_
          · intro e he; obtain ⟨u, hu, _⟩ := hh e he; rw [hu]; rfl
          · intro k t u h1 h2
            obtain ⟨u', hu', hs⟩ := hh (k, t) (Dict.find_some_mem h1)
            simp only at hu'; rw [h2] at hu'; cases hu'; exact hs
        · intro hh; cases hh with
          | dict hk hsame =>
            intro e he
            have h1 : Dict.find e.1 ds = some e.2 := Dict.mem_find hsd he
            have : (Dict.find e.1 es).isSome := by rw [← hk, h1]; rfl
            obtain ⟨u, hu⟩ := Option.isSome_iff_exists.mp this
            exact ⟨u, hu, hsame _ _ _ h1 hu⟩
      · simp only [hlen, if_false]
        refine ⟨false, rfl, ?_⟩
        simp only [Bool.false_eq_true, false_iff]
        intro hs; cases hs with
        | dict hk _ =>
          apply hlen
          have hperm : (es.map Prod.fst).Perm (ds.map Prod.fst) := by
            refine (List.perm_ext_iff_of_nodup (Dict.nodup_keys hse) (Dict.nodup_keys hsd)).mpr ?_
            intro k; rw [← key_mem es hse, ← key_mem ds hsd, hk k]
          simpa using hperm.length_eq

end LP
