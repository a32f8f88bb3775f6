import Verif.Lemma.WireRead
/-! JSON import against the specification. -/
namespace LP
open Heap Tree

namespace Json
theorem depth_mem_array {j : Json} {l : List Json} (h : j ∈ l) : j.depth ≤ depth.depthL l := by
  induction l with
  | nil => simp at h
  | cons u us ih =>
    simp only [List.mem_cons] at h
    simp only [depth.depthL]
    rcases h with rfl | h
    · omega
    · have := ih h; omega

theorem depth_mem_object {m : Str × Json} {l : List (Str × Json)} (h : m ∈ l) : m.2.depth ≤ depth.depthM l := by
  induction l with
  | nil => simp at h
  | cons u us ih =>
    simp only [List.mem_cons] at h
    simp only [depth.depthM]
    rcases h with rfl | h
    · omega
    · have := ih h; omega

theorem getInt_spec (i : Int) : (getInt i).toInt = max (-2 ^ 31) (min i (2 ^ 31 - 1)) := by
  unfold getInt
  split
  · rw [Int32.toInt_ofInt_of_le (by decide) (by decide)]; omega
  · split
    · rw [Int32.toInt_ofInt_of_le (by decide) (by decide)]; omega
    · rw [Int32.toInt_ofInt_of_le (by omega) (by omega)]; omega

theorem cstr_spec (s : Str) : 0 ∉ s ∧ cstr s = s ∨ ∃ z, s = cstr s ++ 0 :: z ∧ 0 ∉ cstr s := by
  unfold cstr
  induction s with
  | nil => simp
  | cons c s ih =>
    by_cases hc : c = 0
    · subst hc; right; exact ⟨s, by simp, by simp⟩
    · simp only [List.takeWhile_cons, ne_eq, hc, not_false_eq_true, decide_true, if_true, List.mem_cons, Ne.symm hc, false_or]
      rcases ih with ⟨h1, h2⟩ | ⟨z, h1, h2⟩
      · left; exact ⟨h1, by rw [h2]⟩
      · right; exact ⟨z, congrArg (c :: ·) h1, h2⟩
end Json

theorem parse_main : ∀ (n : Nat) (j : Json), j.depth ≤ n →
    ∃ t, JsonMeans j t ∧ ∀ h, Builds (do let c ← alloc Node.empty; parseJson n j c; pure c) h t := by
  intro n
  induction n with
  | zero => intro j hd; cases j <;> simp only [Json.depth] at hd <;> omega
  | succ n ih =>
    intro j hd
    cases j with
    | null => exact ⟨_, .null, fun h => builds_empty h⟩
    | bool b => exact ⟨_, .bool b, fun h => builds_value h _⟩
    | double d => exact ⟨_, .double d, fun h => builds_value h _⟩
    | int i => exact ⟨_, .int (Json.getInt_spec i), fun h => builds_value h _⟩
    | string s => exact ⟨_, .string (Json.cstr_spec s), fun h => builds_value h _⟩
    | array js =>
      simp only [Json.depth] at hd
      by_cases hjs : js = []
      · subst hjs; exact ⟨_, .emptyArray, fun h => builds_empty h⟩
      · obtain ⟨ts, hlen, hp⟩ := forall_exists_list js (fun x hx => ih x (by have := Json.depth_mem_array hx; omega))
        refine ⟨.list ts, .array hjs hlen ?_, fun h => ?_⟩
        · intro i j t h1 h2
          rw [List.getElem?_eq_some_iff] at h1 h2
          obtain ⟨h1, rfl⟩ := h1
          obtain ⟨h2, rfl⟩ := h2
          exact (hp i h1 h2).1
        · exact builds_list (fun x => do let c ← alloc Node.empty; parseJson n x c; pure c) js ts h hjs hlen (fun i h1 h2 h'' => (hp i h1 h2).2 h'')
    | object ms =>
      simp only [Json.depth] at hd
      by_cases hms : ms = []
      · subst hms; exact ⟨_, .emptyObject, fun h => builds_empty h⟩
      · obtain ⟨ts, hlen, hp⟩ := forall_exists_list ms (fun x hx => ih x.2 (by have := Json.depth_mem_object hx; omega))
        have hel : ∀ (i : Nat) m kt, ms[i]? = some m → ((ms.map fun m => Json.cstr m.1).zip ts)[i]? = some kt →
            ∃ (h1 : i < ms.length) (h2 : i < ts.length), m = ms[i] ∧ kt = (Json.cstr ms[i].1, ts[i]) := by
          intro i m kt hm hi
          rw [List.getElem?_eq_some_iff] at hi hm
          obtain ⟨hi, rfl⟩ := hi
          obtain ⟨hm, rfl⟩ := hm
          simp only [List.length_zip, List.length_map] at hi
          exact ⟨by omega, by omega, rfl, by simp⟩
        refine ⟨.dict (Dict.insertAll [] ((ms.map fun m => Json.cstr m.1).zip ts)),
          .object (ns := (ms.map fun m => Json.cstr m.1).zip ts) hms ?_ ?_ ?_ (insertAll_pairwise _) (mem_insertAll_iff _), fun h => ?_⟩
        · rw [List.length_zip, List.length_map]; omega
        · intro i m kt h1 h2
          obtain ⟨h3, h4, rfl, rfl⟩ := hel i m kt h1 h2
          exact Json.cstr_spec _
        · intro i m kt h1 h2
          obtain ⟨h3, h4, rfl, rfl⟩ := hel i m kt h1 h2
          exact (hp i h3 h4).1
        · exact builds_dict (fun m => Json.cstr m.1) (fun (x : Str × Json) => do let c ← alloc Node.empty; parseJson n x.2 c; pure c) ms ts h hms hlen
            (fun i h1 h2 h'' => (hp i h1 h2).2 h'')

theorem cstr_unique {s r r' : Str} (h : 0 ∉ s ∧ r = s ∨ ∃ z, s = r ++ 0 :: z ∧ 0 ∉ r)
    (h' : 0 ∉ s ∧ r' = s ∨ ∃ z, s = r' ++ 0 :: z ∧ 0 ∉ r') : r = r' := by
  rcases h with ⟨h1, h2⟩ | ⟨z, h1, h2⟩
  · rcases h' with ⟨h3, h4⟩ | ⟨z', h3, h4⟩
    · rw [h2, h4]
    · exact absurd (by rw [h3]; simp) h1
  · rcases h' with ⟨h3, h4⟩ | ⟨z', h3, h4⟩
    · exact absurd (by rw [h1]; simp) h3
    · have key : ∀ (a b : Str) (x y : Str), a ++ 0 :: x = b ++ 0 :: y → 0 ∉ a → 0 ∉ b → a = b := by
        intro a
        induction a with
        | nil => intro b x y he _ hb; cases b with
          | nil => rfl
          | cons c b => simp only [List.nil_append, List.cons_append, List.cons.injEq] at he; exact absurd (by rw [← he.1]; simp) hb
        | cons c a ih => intro b x y he ha hb; cases b with
          | nil => simp only [List.nil_append, List.cons_append, List.cons.injEq] at he; exact absurd (by rw [he.1]; simp) ha
          | cons d b =>
            simp only [List.cons_append, List.cons.injEq] at he
            simp only [List.mem_cons, not_or] at ha hb
            rw [he.1, ih b x y he.2 ha.2 hb.2]
      exact key r r' z z' (h1.symm.trans h3) h2 h4

theorem JsonMeans.unique {j : Json} {t : Tree} (h : JsonMeans j t) : ∀ {u : Tree}, JsonMeans j u → t = u := by
  induction h with
  | null => intro u h; cases h; rfl
  | bool => intro u h; cases h; rfl
  | double => intro u h; cases h; rfl
  | int h1 => intro u h; cases h with | int h2 => rw [Int32.toInt_inj.mp (h1.trans h2.symm)]
  | string h1 => intro u h; cases h with | string h2 => rw [cstr_unique h1 h2]
  | emptyArray => intro u h; cases h with
    | emptyArray => rfl
    | array h => exact absurd rfl h
  | emptyObject => intro u h; cases h with
    | emptyObject => rfl
    | object h => exact absurd rfl h
  | @array js ts hne hl _ ih =>
    intro u h
    cases h with
    | emptyArray => exact absurd rfl hne
    | array _ hl' h' =>
      congr 1
      refine List.ext_getElem (by omega) ?_
      intro i h1 h2
      have h3 : i < js.length := by omega
      exact ih i _ _ (List.getElem?_eq_getElem h3) (List.getElem?_eq_getElem h1)
        (h' i _ _ (List.getElem?_eq_getElem h3) (List.getElem?_eq_getElem h2))
  | @object ms ns ds hne hl hkeys _ hpw hlast ih =>
    intro u h
    cases h with
    | emptyObject => exact absurd rfl hne
    | @object _ ns' ds' _ hl' hkeys' hm' hpw' hlast' =>
      have : ns = ns' := by
        refine List.ext_getElem (by omega) ?_
        intro i h1 h2
        have h3 : i < ms.length := by omega
        refine Prod.ext ?_ ?_
        · exact cstr_unique (hkeys i _ _ (List.getElem?_eq_getElem h3) (List.getElem?_eq_getElem h1))
            (hkeys' i _ _ (List.getElem?_eq_getElem h3) (List.getElem?_eq_getElem h2))
        · exact ih i _ _ (List.getElem?_eq_getElem h3) (List.getElem?_eq_getElem h1)
            (hm' i _ _ (List.getElem?_eq_getElem h3) (List.getElem?_eq_getElem h2))
      subst this
      congr 1
      exact sorted_mem_ext (pairwise_sorted hpw) (pairwise_sorted hpw') (fun kt => (hlast kt).trans (hlast' kt).symm)

theorem JsonMeans.no_empty {j : Json} {t : Tree} (h : JsonMeans j t) : ¬ HasEmptyContainer t := by
  induction h with
  | @array js ts hne hl _ ih =>
    intro h
    cases h with
    | emptyList => exact hne (List.length_eq_zero_iff.mp hl)
    | list hm h =>
      obtain ⟨i, hi, rfl⟩ := List.mem_iff_getElem.mp hm
      exact ih i _ _ (List.getElem?_eq_getElem (by omega)) (List.getElem?_eq_getElem hi) h
  | @object ms ns ds hne hl hkeys _ hpw hlast ih =>
    intro h
    cases h with
    | emptyDict =>
      have hns : ns ≠ [] := by intro e; subst e; exact hne (List.length_eq_zero_iff.mp hl)
      have := (hlast (ns.getLast hns)).mpr ⟨ns.dropLast, [], (List.dropLast_concat_getLast hns).symm, by simp⟩
      simp at this
    | @dict k t _ hm h =>
      obtain ⟨l1, l2, he, _⟩ := (hlast (k, t)).mp hm
      have hmem : (k, t) ∈ ns := by rw [he]; simp
      obtain ⟨i, hi, he⟩ := List.mem_iff_getElem.mp hmem
      have := ih i _ _ (List.getElem?_eq_getElem (by omega)) (List.getElem?_eq_getElem hi)
      rw [he] at this
      exact this h
  | _ => exact nofun

end LP
