import Verif.Lemma.Canon
/-! Serialisation against the specification, and what survives a round trip. -/
namespace LP
open Heap Tree

/-! ## Writing tables -/

theorem wireDbl_eq (d : Dbl) : FB.wireDbl d = if Ieee.value d = some (.fin 0) then 0 else d := by
  unfold FB.wireDbl
  by_cases h : d.isZero = true
  · rw [if_pos h, if_pos ((Ieee.isZero_iff d).1 h)]
  · rw [if_neg h, if_neg (fun e => h ((Ieee.isZero_iff d).2 e))]


theorem wireL_eq (ts : List Tree) : wireL ts = ts.map wire := by
  induction ts with
  | nil => rfl
  | cons t ts ih => simp [wireL, ih]

theorem wireD_eq (ds : List (Str × Tree)) : wireD ds = ds.map (fun e => (e.1, wire e.2)) := by
  induction ds with
  | nil => rfl
  | cons t ts ih => obtain ⟨k, t⟩ := t; simp [wireD, ih]

theorem wire_list {ts : List Tree} (h : ts ≠ []) : wire (.list ts) = .list (ts.map wire) := by
  cases ts with
  | nil => exact absurd rfl h
  | cons t ts => simp [wire, wireL_eq]

theorem wire_dict {ds : List (Str × Tree)} (h : ds ≠ []) : wire (.dict ds) = .dict (ds.map fun e => (e.1, wire e.2)) := by
  cases ds with
  | nil => exact absurd rfl h
  | cons e ds => obtain ⟨k, t⟩ := e; simp [wire, wireD_eq]

theorem mapM_ok {α β : Type} {h : Heap} (f : α → M Heap β) (xs : List α) (ys : List β) (hl : xs.length = ys.length)
    (hf : ∀ i (h1 : i < xs.length) (h2 : i < ys.length), f xs[i] h = .ok ys[i] h) : mapM' f xs h = .ok ys h := by
  induction xs generalizing ys with
  | nil => cases ys <;> simp_all [mapM']
  | cons x xs ih =>
    cases ys with
    | nil => simp at hl
    | cons y ys =>
      have h0 := hf 0 (by simp) (by simp)
      simp only [List.getElem_cons_zero] at h0
      have h1 := ih ys (by simpa using hl) (fun i h1 h2 => by
        have := hf (i + 1) (by simp; omega) (by simp; omega)
        simpa using this)
      simp only [mapM', M.bind_run, h0, h1, M.pure_run]

theorem choose_list {β : Type} {P : Nat → β → Prop} (n : Nat) (h : ∀ i, i < n → ∃ y, P i y) :
    ∃ ys : List β, ys.length = n ∧ ∀ i (h2 : i < ys.length), P i ys[i] := by
  obtain ⟨ys, hl, hp⟩ := forall_exists_list (P := fun (x : Nat) y => P x y) (List.range n) (fun x hx => h x (List.mem_range.mp hx))
  simp only [List.length_range] at hl
  exact ⟨ys, hl.symm, fun i h2 => by have := hp i (by simpa [hl]) h2; simpa using this⟩

theorem on_getVal {h : Heap} {a : Nat} {v : Val} (hn : h.node a = ⟨.value, [], [], some v⟩) : on a (Node.getVal v.ty) h = .ok v h := by
  have := put_self h a
  rw [hn] at this
  simp [on, hn, Node.getVal, this]

theorem serialize_main {h : Heap} {S : Nat → Prop} : ∀ (t : Tree) (n : Nat) (a : Nat), t.depth ≤ n → Rep h S t a →
    ∃ f, serialize n a h = .ok f h ∧ ¬ Broken f ∧ Means f t.wire := by
  intro t
  induction t using Tree.ind with
  | empty =>
    intro n a hd hr
    obtain ⟨n, rfl⟩ : ∃ m, n = m + 1 := ⟨n - 1, by simp only [Tree.depth] at hd; omega⟩
    refine ⟨.mk 0 0 none 0 0 false (some []) (some []) (some []), by simp [serialize, hr.2], nofun, .unknown (by decide)⟩
  | value v =>
    intro n a hd hr
    obtain ⟨n, rfl⟩ : ∃ m, n = m + 1 := ⟨n - 1, by simp only [Tree.depth] at hd; omega⟩
    have hn := hr.2
    have hg := on_getVal hn
    cases v with
    | str s =>
      refine ⟨.mk 1 0 (some s) 0 0 false (some []) (some []) (some []), ?_, nofun, .str⟩
      simp only [Val.ty] at hg
      simp [serialize, hn, Node.isOfType, Val.ty, hg]
    | int i =>
      refine ⟨.mk 1 1 none i 0 false (some []) (some []) (some []), ?_, nofun, .int⟩
      simp only [Val.ty] at hg
      simp [serialize, hn, Node.isOfType, Val.ty, hg]
    | dbl d =>
      refine ⟨.mk 1 2 none 0 (FB.wireDbl d) false (some []) (some []) (some []), ?_, nofun, wireDbl_eq d ▸ .dbl⟩
      simp only [Val.ty] at hg
      simp [serialize, hn, Node.isOfType, Val.ty, hg]
    | bool b =>
      refine ⟨.mk 1 3 none 0 0 b (some []) (some []) (some []), ?_, nofun, .bool⟩
      simp only [Val.ty] at hg
      simp [serialize, hn, Node.isOfType, Val.ty, hg]
    | other m c =>
      refine ⟨.mk 0 0 none 0 0 false (some []) (some []) (some []), ?_, nofun, .unknown (by decide)⟩
      simp [serialize, hn, Node.isOfType, Val.ty]
  | list ts ih =>
    intro n a hd hr
    obtain ⟨n, rfl⟩ : ∃ m, n = m + 1 := ⟨n - 1, by simp only [Tree.depth] at hd; omega⟩
    simp only [Tree.depth] at hd
    obtain ⟨_, ps, hn, hl⟩ := hr
    rw [RepL_iff] at hl
    obtain ⟨fs, hlen, hp⟩ := choose_list (P := fun i f => ∀ (h1 : i < ts.length) (h2 : i < ps.length),
        (deref ps[i] >>= serialize n) h = .ok f h ∧ ¬ Broken f ∧ Means f ts[i].wire) ts.length (by
      intro i hi
      obtain ⟨b, hb, hrb⟩ := hl.2 i hi (by omega)
      have hm := List.getElem_mem hi
      obtain ⟨f, h1, h2, h3⟩ := ih _ hm n b (by have := Tree.depth_mem_list hm; omega) hrb
      exact ⟨f, fun _ _ => ⟨by rw [hb, M.bind_run, deref_some]; exact h1, h2, h3⟩⟩)
    have hmap := mapM_ok (fun (p : Ptr) => deref p >>= serialize n) ps fs (by omega) (fun i h1 h2 => (hp i h2 (by omega) h1).1)
    refine ⟨.mk 2 0 none 0 0 false (some fs) (some []) (some []), ?_, ?_, ?_⟩
    · simp only [serialize, M.bind_run, M.get_run, hn]
      rw [hmap]; rfl
    · intro hb
      cases hb with
      | inList hm hb =>
        obtain ⟨i, hi, rfl⟩ := List.mem_iff_getElem.mp hm
        exact (hp i hi (by omega) (by omega)).2.1 hb
    · by_cases hts : ts = []
      · subst hts
        have : fs = [] := List.length_eq_zero_iff.mp hlen
        subst this; exact .emptyList
      · rw [wire_list hts]
        refine .list ?_ (by simp [hlen]) ?_
        · intro e; subst e; simp only [List.length_nil] at hlen; exact hts (List.length_eq_zero_iff.mp hlen.symm)
        · intro i f t h1 h2
          rw [List.getElem?_eq_some_iff] at h1 h2
          obtain ⟨h1, rfl⟩ := h1
          obtain ⟨h2, rfl⟩ := h2
          simp only [List.getElem_map]
          exact (hp i h1 (by omega) (by omega)).2.2
  | dict ds ih =>
    intro n a hd hr
    obtain ⟨n, rfl⟩ : ∃ m, n = m + 1 := ⟨n - 1, by simp only [Tree.depth] at hd; omega⟩
    simp only [Tree.depth] at hd
    obtain ⟨_, d, hn, hs, hl⟩ := hr
    have hsd := Rep.dict_sorted hs hl
    rw [RepD_iff, RepL_iff] at hl
    simp only [List.length_map] at hl
    obtain ⟨fs, hlen, hp⟩ := choose_list (P := fun i f => ∀ (h1 : i < ds.length) (h2 : i < d.length),
        (deref d[i].2 >>= serialize n) h = .ok f h ∧ ¬ Broken f ∧ Means f ds[i].2.wire) ds.length (by
      intro i hi
      obtain ⟨b, hb, hrb⟩ := hl.2.2 i hi (by omega)
      simp only [List.getElem_map] at hb hrb
      have hm := List.getElem_mem hi
      obtain ⟨f, h1, h2, h3⟩ := ih _ hm n b (by have := Tree.depth_mem_dict hm; omega) hrb
      exact ⟨f, fun _ _ => ⟨by rw [hb, M.bind_run, deref_some]; exact h1, h2, h3⟩⟩)
    have hmap := mapM_ok (fun (kp : Str × Ptr) => deref kp.2 >>= serialize n) d fs (by omega) (fun i h1 h2 => (hp i h2 (by omega) h1).1)
    refine ⟨.mk 3 0 none 0 0 false (some []) (some (d.map Prod.fst)) (some fs), ?_, ?_, ?_⟩
    · simp only [serialize, M.bind_run, M.get_run, hn]
      rw [hmap]; rfl
    · intro hb
      cases hb with
      | inDict hm hb =>
        obtain ⟨i, hi, rfl⟩ := List.mem_iff_getElem.mp (List.mem_of_mem_take hm)
        exact (hp i hi (by omega) (by omega)).2.1 hb
    · by_cases hts : ds = []
      · subst hts
        have : fs = [] := List.length_eq_zero_iff.mp hlen
        subst this; exact .emptyDict (.inr rfl)
      · rw [wire_dict hts, hl.1]
        have hpos : 0 < ds.length := List.length_pos_iff.mpr hts
        have hsw : Dict.Sorted (V := Tree) (ds.map fun e => (e.1, wire e.2)) := Dict.map_sorted hsd
        refine .dict (ms := ds.map fun e => (e.1, wire e.2)) ?_ ?_ ?_ ?_ ?_ ?_ ?_
        · simpa using hts
        · intro e; subst e; simp only [List.length_nil] at hlen; omega
        · simp [hlen]
        · intro i kt hi
          rw [List.getElem?_map] at hi ⊢
          cases hdi : ds[i]? with
          | none => simp [hdi] at hi
          | some e => simp only [hdi, Option.map_some, Option.some.injEq] at hi; simp [← hi]
        · intro i kt f h1 h2
          rw [List.getElem?_eq_some_iff] at h1 h2
          obtain ⟨h1, rfl⟩ := h1
          obtain ⟨h2, rfl⟩ := h2
          simp only [List.getElem_map]
          exact (hp i h2 (by omega) (by omega)).2.2
        · exact hsw.imp (fun h => Str.lt_iff.mp h)
        · intro kt
          rw [← mem_insertAll_iff, Dict.insertAll_of_sorted (d := [])]
          · simp
          · simpa using hsw

/-! ## Determinacy of the specification -/

theorem Broken.no_meaning {f : FB} (h : Broken f) : ∀ {t : Tree}, ¬ Means f t := by
  induction h with
  | str => intro t ht; cases ht <;> simp_all
  | list => intro t ht; cases ht; simp_all
  | keys => intro t ht; cases ht; simp_all
  | contents => intro t ht; cases ht; simp_all
  | inList hm _ ih =>
    intro t ht
    cases ht with
    | unknown h => simp at h
    | emptyList => cases hm
    | list h1 h2 h3 =>
      obtain ⟨i, hi, rfl⟩ := List.getElem_of_mem hm
      exact ih (h3 i _ _ (List.getElem?_eq_getElem hi) (List.getElem?_eq_getElem (h2 ▸ hi)))
  | inDict hm _ ih =>
    intro t ht
    cases ht with
    | unknown h => simp at h
    | emptyDict h => rcases h with rfl | rfl <;> simp at hm
    | dict h1 h2 h3 h4 h5 =>
      obtain ⟨i, hi, rfl⟩ := List.getElem_of_mem hm
      have hi' := hi
      simp only [List.length_take] at hi'
      exact ih (h5 i _ _ (List.getElem?_eq_getElem (by omega)) (by rw [List.getElem_take]; exact List.getElem?_eq_getElem (by omega)))

theorem Means.unique {f : FB} {t : Tree} (h : Means f t) : ∀ {u : Tree}, Means f u → t = u := by
  induction h with
  | str => intro u h; cases h <;> first | rfl | (simp at *; done)
  | int => intro u h; cases h <;> first | rfl | (simp at *; done)
  | dbl => intro u h; cases h <;> first | rfl | (simp at *; done)
  | bool => intro u h; cases h <;> first | rfl | (simp at *; done)
  | badValue hv => intro u h; cases h <;> first | rfl | (simp at *; done)
  | unknown ht => intro u h; cases h <;> first | rfl | (simp at *; done)
  | emptyList => intro u h; cases h <;> first | rfl | (simp at *; done)
  | @list v s i d b k c l ts hne hl _ ih =>
    intro u h
    cases h with
    | unknown h => simp at h
    | emptyList => exact absurd rfl hne
    | @list _ _ _ _ _ _ _ _ us _ hl' h' =>
      congr 1
      refine List.ext_getElem (by omega) ?_
      intro i h1 h2
      have h3 : i < l.length := by omega
      exact ih i _ _ (List.getElem?_eq_getElem h3) (List.getElem?_eq_getElem h1)
        (h' i _ _ (List.getElem?_eq_getElem h3) (List.getElem?_eq_getElem h2))
  | emptyDict hkc =>
    intro u h
    cases h with
    | unknown h => rfl
    | emptyDict => rfl
    | dict hk hc => rcases hkc with h | h; exact absurd h hk; exact absurd h hc
  | @dict v s i d b l k c ms ds hk hc hl hkeys _ hpw hlast ih =>
    intro u h
    cases h with
    | unknown h => simp at h
    | emptyDict hkc => rcases hkc with h | h; exact absurd h hk; exact absurd h hc
    | @dict _ _ _ _ _ _ _ _ ms' ds' _ _ hl' hkeys' hm' hpw' hlast' =>
      have : ms = ms' := by
        refine List.ext_getElem (by omega) ?_
        intro i h1 h2
        have h3 : i < c.length := by omega
        have e1 := hkeys i _ (List.getElem?_eq_getElem h1)
        have e2 := hkeys' i _ (List.getElem?_eq_getElem h2)
        rw [e1, Option.some.injEq] at e2
        refine Prod.ext e2 ?_
        exact ih i _ _ (List.getElem?_eq_getElem h1) (List.getElem?_eq_getElem h3)
          (hm' i _ _ (List.getElem?_eq_getElem h2) (List.getElem?_eq_getElem h3))
      subst this
      congr 1
      exact sorted_mem_ext (pairwise_sorted hpw) (pairwise_sorted hpw') (fun kt => (hlast kt).trans (hlast' kt).symm)

/-! ## What survives -/

theorem same_dict_map {ds : List (Str × Tree)} (hs : Dict.Sorted (V := Tree) ds) (g : Tree → Tree) :
    Same (.dict ds) (.dict (ds.map fun e => (e.1, g e.2))) ↔ ∀ e ∈ ds, Same e.2 (g e.2) := by
  constructor
  · intro h e he
    cases h with
    | dict hk hall =>
      refine hall e.1 e.2 (g e.2) (Dict.mem_find hs he) ?_
      rw [Dict.find_map (f := g), Dict.mem_find hs he]; rfl
  · intro h
    refine .dict ?_ ?_
    · intro k; rw [Dict.find_map (f := g)]; simp
    · intro k t u h1 h2
      rw [Dict.find_map (f := g), h1] at h2
      simp only [Option.map_some, Option.some.injEq] at h2; subst h2
      exact h _ (Dict.find_some_mem h1)

theorem Canon.same_wire {t : Tree} (ht : Canon t) : Same t t.wire ↔ ¬ Lossy t := by
  induction ht with
  | empty => exact ⟨fun _ => nofun, fun _ => .empty⟩
  | value v =>
    cases v with
    | str s => exact ⟨fun _ => nofun, fun _ => .value (.str s)⟩
    | int s => exact ⟨fun _ => nofun, fun _ => .value (.int s)⟩
    | bool s => exact ⟨fun _ => nofun, fun _ => .value (.bool s)⟩
    | other n c => exact ⟨(fun h => nomatch h), fun h => absurd (Lossy.other n c) h⟩
    | dbl d =>
      simp only [wire]
      constructor
      · intro h hl
        cases hl with
        | nan hn =>
          cases h with
          | value h =>
            cases h with
            | dbl _ _ _ h => exact h hn
      · intro h
        split
        · rename_i hz; exact .value (.dbl _ _ (by rw [hz]; decide) (by rw [hz]; simp))
        · exact .value (.dbl _ _ rfl (fun hn => h (.nan hn)))
  | @list ts _ ih =>
    by_cases hts : ts = []
    · subst hts; exact ⟨(fun h => nomatch h), fun h => absurd Lossy.emptyList h⟩
    · rw [wire_list hts]
      constructor
      · intro h hl
        cases h with
        | list _ hall =>
        cases hl with
        | emptyList => exact hts rfl
        | list hm hl =>
          obtain ⟨i, hi, rfl⟩ := List.mem_iff_getElem.mp hm
          exact (ih _ hm).mp (hall i _ _ (List.getElem?_eq_getElem hi) (by rw [List.getElem?_map, List.getElem?_eq_getElem hi]; rfl)) hl
      · intro h
        refine .list (by simp) ?_
        intro i t u h1 h2
        rw [List.getElem?_map, h1] at h2
        simp only [Option.map_some, Option.some.injEq] at h2; subst h2
        have hm := List.mem_of_getElem? h1
        exact (ih t hm).mpr (fun hl => h (.list hm hl))
  | @dict ds hs _ ih =>
    by_cases hds : ds = []
    · subst hds; exact ⟨(fun h => nomatch h), fun h => absurd Lossy.emptyDict h⟩
    · rw [wire_dict hds, same_dict_map hs wire]
      constructor
      · intro h hl
        cases hl with
        | emptyDict => exact hds rfl
        | dict hm hl => exact (ih _ hm).mp (h _ hm) hl
      · intro h e he
        exact (ih _ he).mpr (fun hl => h (.dict he hl))

theorem wire_wire : ∀ t : Tree, t.wire.wire = t.wire := by
  refine Tree.ind rfl ?_ ?_ ?_
  · intro v
    cases v with
    | dbl d =>
      simp only [wire]
      split
      · simp [show Ieee.value 0 = some (.fin 0) from by decide]
      · rename_i h; simp [h]
    | _ => rfl
  · intro ts ih
    by_cases hts : ts = []
    · subst hts; rfl
    · rw [wire_list hts, wire_list (by simpa using hts), List.map_map]
      congr 1
      exact List.map_congr_left ih
  · intro ds ih
    by_cases hts : ds = []
    · subst hts; rfl
    · rw [wire_dict hts, wire_dict (by simpa using hts), List.map_map]
      congr 1
      refine List.map_congr_left ?_
      intro e he; simp [ih e he]

end LP
