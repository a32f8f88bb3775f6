import Verif.Lemma.WF
import Verif.Spec.Wire
/-! Deserialisation against the specification. -/
namespace LP
open Heap Tree

/-! ## Building containers from a fresh object -/

theorem builds_empty (h : Heap) : Builds (do let c ← alloc Node.empty; pure c) h .empty := by
  refine ⟨h.next, { (h.put h.next Node.empty) with next := h.next + 1 }, ?_, ⟨by simp, ?_⟩, ⟨Nat.le_refl _, by simp⟩, by simp [Node.empty]⟩
  · simp [alloc_run]
  · intro b hb; simp [Nat.ne_of_lt hb]

theorem builds_value (h : Heap) (v : Val) : Builds (do let c ← alloc Node.empty; on c (Node.setValue v); pure c) h (.value v) := by
  refine ⟨h.next, { (h.put h.next ⟨.value, [], [], some v⟩) with next := h.next + 1 }, ?_, ⟨by simp, ?_⟩, ⟨Nat.le_refl _, by simp⟩, by simp⟩
  · simp [alloc_run, on, Node.setValue, put, Node.empty]
    funext b; split <;> rfl
  · intro b hb; simp [Nat.ne_of_lt hb]

theorem builds_list {α : Type} (f : α → M Heap Addr) (xs : List α) (ts : List Tree) (h : Heap) (hne : xs ≠ []) (hl : xs.length = ts.length)
    (hb : ∀ i (h1 : i < xs.length) (h2 : i < ts.length) (h'' : Heap), Builds (f xs[i]) h'' ts[i]) :
    Builds (do let c ← alloc Node.empty; M.each (fun x => do let d ← f x; on c (Node.add (some d))) xs; pure c) h (.list ts) := by
  let h1 : Heap := { (h.put h.next Node.empty) with next := h.next + 1 }
  obtain ⟨h', qs, he, hnx, hun, _, hcn, _, hrl⟩ := each_add f h.next h.next h (Nat.le_refl _)
    xs ts [] h1 [] (by simp [h1]) (by intro b hb; simp [h1, Nat.ne_of_lt hb]) (by simp [h1, Node.toList, Node.empty])
    (by simp [RepL]) hl (fun i a b h'' _ _ => hb i a b h'')
  refine ⟨h.next, h', ?_, ⟨?_, ?_⟩, ?_, qs, hcn hne, ?_⟩
  · have hst : alloc Node.empty h = .ok h.next h1 := rfl
    rw [M.bind_run, hst]
    simp only
    rw [M.bind_run, he]; rfl
  · simp only [h1] at hnx; omega
  · intro b hb
    rw [hun b (by simp only [h1]; omega) (Nat.ne_of_lt hb)]
    simp [h1, Nat.ne_of_lt hb]
  · exact ⟨Nat.le_refl _, by simp only [h1] at hnx; omega⟩
  · refine RepL.mono ?_ (fun _ _ => rfl) hrl
    intro x ⟨h1, h2⟩; exact ⟨Nat.le_of_lt h1, h2⟩

theorem builds_dict {α : Type} (key : α → Str) (f : α → M Heap Addr) (xs : List α) (ts : List Tree) (h : Heap) (hne : xs ≠ [])
    (hl : xs.length = ts.length)
    (hb : ∀ i (h1 : i < xs.length) (h2 : i < ts.length) (h'' : Heap), Builds (f xs[i]) h'' ts[i]) :
    Builds (do let c ← alloc Node.empty; M.each (fun x => do let d ← f x; on c (Node.setKey (key x) (some d))) xs; pure c) h
      (.dict (Dict.insertAll [] ((xs.map key).zip ts))) := by
  let h1 : Heap := { (h.put h.next Node.empty) with next := h.next + 1 }
  obtain ⟨h', e, he, hnx, hun, _, hcn, _, hse, hrl⟩ := each_setKey key f h.next h.next h (Nat.le_refl _)
    xs ts [] h1 [] (by simp [h1]) (by intro b hb; simp [h1, Nat.ne_of_lt hb]) (by simp [h1, Node.toDict, Node.empty])
    Dict.sorted_nil (by simp [RepD]) hl (fun i a b h'' _ _ => hb i a b h'')
  refine ⟨h.next, h', ?_, ⟨?_, ?_⟩, ?_, e, hcn hne, hse, ?_⟩
  · have hst : alloc Node.empty h = .ok h.next h1 := rfl
    rw [M.bind_run, hst]
    simp only
    rw [M.bind_run, he]; rfl
  · simp only [h1] at hnx; omega
  · intro b hb
    rw [hun b (by simp only [h1]; omega) (Nat.ne_of_lt hb)]
    simp [h1, Nat.ne_of_lt hb]
  · exact ⟨Nat.le_refl _, by simp only [h1] at hnx; omega⟩
  · refine RepD.mono ?_ (fun _ _ => rfl) hrl
    intro x ⟨h1, h2⟩; exact ⟨Nat.le_of_lt h1, h2⟩

/-- A loop over bodies that are either undefined or fine, at least one of which is undefined. -/
theorem each_ub {α : Type} (body : α → M Heap Unit) (xs : List α)
    (hall : ∀ x ∈ xs, (∀ h, body x h = .ub) ∨ (∀ h, ∃ h', body x h = .ok () h')) (hex : ∃ x ∈ xs, ∀ h, body x h = .ub) :
    ∀ h, M.each body xs h = .ub := by
  induction xs with
  | nil => simp at hex
  | cons x xs ih =>
    intro h
    rcases hall x (by simp) with hu | ho
    · simp [hu h]
    · obtain ⟨h', e⟩ := ho h
      simp only [M.each_cons, e]
      refine ih (fun y hy => hall y (by simp [hy])) ?_ h'
      obtain ⟨y, hy, hyu⟩ := hex
      simp only [List.mem_cons] at hy
      rcases hy with rfl | hy
      · rw [hyu h] at e; cases e
      · exact ⟨y, hy, hyu⟩

/-! ## The last of several entries counts -/

theorem mem_insertAll_iff (ms : List (Str × Tree)) (kt : Str × Tree) :
    kt ∈ Dict.insertAll [] ms ↔ ∃ l1 l2, ms = l1 ++ kt :: l2 ∧ ∀ e ∈ l2, e.1 ≠ kt.1 := by
  have hs : Dict.Sorted (Dict.insertAll [] ms) := Dict.insertAll_sorted (V := Tree) Dict.sorted_nil
  have h1 : kt ∈ Dict.insertAll [] ms ↔ Dict.find kt.1 ms.reverse = some kt.2 := by
    constructor
    · intro h
      have := Dict.mem_find hs h
      rw [Dict.find_insertAll] at this
      cases hf : Dict.find kt.1 ms.reverse with
      | none => simp [hf] at this
      | some v => simpa [hf] using this
    · intro h
      have : Dict.find kt.1 (Dict.insertAll [] ms) = some kt.2 := by rw [Dict.find_insertAll, h]
      exact Dict.find_some_mem this
  have h2 : ∀ (rs : List (Str × Tree)), Dict.find kt.1 rs = some kt.2 ↔ ∃ l1 l2, rs = l2 ++ kt :: l1 ∧ ∀ e ∈ l2, e.1 ≠ kt.1 := by
    intro rs
    induction rs with
    | nil => simp
    | cons x rs ih =>
      obtain ⟨q, w⟩ := x
      simp only [Dict.find]
      by_cases hq : q = kt.1
      · simp only [hq, if_true, Option.some.injEq]
        constructor
        · intro hw; exact ⟨rs, [], by simp [hw], by simp⟩
        · rintro ⟨l1, l2, he, hne⟩
          cases l2 with
          | nil => simp only [List.nil_append, List.cons.injEq] at he; rw [← he.1]
          | cons y l2 =>
            simp only [List.cons_append, List.cons.injEq] at he
            exact absurd (by rw [← he.1]) (hne y (by simp))
      · simp only [hq, if_false, ih]
        constructor
        · rintro ⟨l1, l2, rfl, hne⟩; exact ⟨l1, (q, w) :: l2, rfl, by simpa [hq] using hne⟩
        · rintro ⟨l1, l2, he, hne⟩
          cases l2 with
          | nil => simp only [List.nil_append, List.cons.injEq] at he; exact absurd (by rw [← he.1]) hq
          | cons y l2 =>
            simp only [List.cons_append, List.cons.injEq] at he
            exact ⟨l1, l2, he.2, fun e he => hne e (by simp [he])⟩
  rw [h1, h2]
  constructor
  · rintro ⟨l1, l2, he, hne⟩
    refine ⟨l1.reverse, l2.reverse, ?_, by simpa using hne⟩
    have := congrArg List.reverse he
    simpa using this
  · rintro ⟨l1, l2, rfl, hne⟩
    exact ⟨l1.reverse, l2.reverse, by simp, by simpa using hne⟩

theorem insertAll_pairwise (ms : List (Str × Tree)) : (Dict.insertAll [] ms).Pairwise (fun e f => e.1 < f.1) :=
  (Dict.insertAll_sorted (V := Tree) Dict.sorted_nil).imp (fun h => Str.lt_iff.mp h)

theorem insertAll_ne_nil {ms : List (Str × Tree)} (h : ms ≠ []) : Dict.insertAll [] ms ≠ [] := by
  intro he
  have hm := mem_insertAll_iff ms
  rw [he] at hm
  have := (hm (ms.getLast h)).mpr ⟨ms.dropLast, [], (List.dropLast_concat_getLast h).symm, by simp⟩
  simp at this

/-! ## Reading tables -/

namespace FB
theorem depth_mem_list {f : FB} {l : List FB} (h : f ∈ l) : f.depth ≤ depth.depthL l := by
  induction l with
  | nil => simp at h
  | cons u us ih =>
    simp only [List.mem_cons] at h
    simp only [depth.depthL]
    rcases h with rfl | h
    · omega
    · have := ih h; omega
end FB

theorem forall_exists_list {α β : Type} {P : α → β → Prop} (xs : List α) (h : ∀ x ∈ xs, ∃ y, P x y) :
    ∃ ys : List β, xs.length = ys.length ∧ ∀ i (h1 : i < xs.length) (h2 : i < ys.length), P xs[i] ys[i] := by
  induction xs with
  | nil => exact ⟨[], rfl, by simp⟩
  | cons x xs ih =>
    obtain ⟨y, hy⟩ := h x (by simp)
    obtain ⟨ys, hl, hp⟩ := ih (fun z hz => h z (by simp [hz]))
    refine ⟨y :: ys, by simp [hl], ?_⟩
    intro i h1 h2
    cases i with
    | zero => exact hy
    | succ i => exact hp i (by simpa using h1) (by simpa using h2)

theorem ite_run {σ α : Type} (c : Prop) [Decidable c] (a b : M σ α) (s : σ) : (if c then a else b) s = if c then a s else b s := by
  split <;> rfl

theorem bind_ub {α β : Type} (m : M Heap α) (f : α → M Heap β) (h : Heap) (hm : m h = .ub) : (m >>= f) h = .ub := by
  rw [M.bind_run, hm]

theorem deserialize_main : ∀ (n : Nat) (f : FB), f.depth ≤ n →
    (Broken f ∧ ∀ h, deserialize n f h = .ub) ∨ (¬ Broken f ∧ ∃ t, Means f t ∧ ∀ h, Builds (deserialize n f) h t) := by
  intro n
  induction n with
  | zero => intro f hd; cases f; simp only [FB.depth] at hd; omega
  | succ n ih =>
    intro f hd
    obtain ⟨dt, vt, s, i, d, b, l, k, c⟩ := f
    simp only [FB.depth] at hd
    by_cases h1 : dt = 1
    · subst h1
      by_cases v0 : vt = 0
      · subst v0
        cases s with
        | none => exact .inl ⟨.str, fun h => by simp [deserialize, alloc_run]⟩
        | some s =>
          refine .inr ⟨nofun, _, .str, fun h => ?_⟩
          have := builds_value h (.str s)
          simpa only [deserialize, if_true] using this
      by_cases v1 : vt = 1
      · subst v1
        refine .inr ⟨nofun, _, .int, fun h => ?_⟩
        exact builds_value h (.int i)
      by_cases v2 : vt = 2
      · subst v2
        refine .inr ⟨nofun, _, .dbl, fun h => ?_⟩
        exact builds_value h (.dbl d)
      by_cases v3 : vt = 3
      · subst v3
        refine .inr ⟨nofun, _, .bool, fun h => ?_⟩
        exact builds_value h (.bool b)
      refine .inr ⟨?_, _, .badValue (by simp [v0, v1, v2, v3]), fun h => ?_⟩
      · intro hb; cases hb; exact v0 rfl
      · have := builds_empty h
        simp only [deserialize, v0, v1, v2, v3, if_true, if_false]
        exact this
    by_cases h2 : dt = 2
    · subst h2
      cases l with
      | none => exact .inl ⟨.list, fun h => by simp [deserialize, alloc_run]⟩
      | some l =>
        simp only [FB.depth.depthO] at hd
        have hch : ∀ x ∈ l, _ := fun x hx => ih x (by have := FB.depth_mem_list hx; omega)
        by_cases hbr : ∃ x ∈ l, Broken x
        · refine .inl ⟨?_, fun h => ?_⟩
          · obtain ⟨x, hx, hb⟩ := hbr; exact .inList hx hb
          · have key : ∀ c h, M.each (fun x => do let d ← deserialize n x; on c (Node.add (some d))) l h = .ub := by
              intro c
              refine each_ub _ _ ?_ ?_
              · intro x hx
                rcases hch x hx with ⟨_, hu⟩ | ⟨_, t, _, hb⟩
                · exact .inl fun h => by rw [M.bind_run, hu h]
                · refine .inr fun h => ?_
                  obtain ⟨a, h', e, _⟩ := hb h
                  exact ⟨_, by rw [M.bind_run, e]; rfl⟩
              · obtain ⟨x, hx, hb⟩ := hbr
                rcases hch x hx with ⟨_, hu⟩ | ⟨hnb, _⟩
                · exact ⟨x, hx, fun h => by rw [M.bind_run, hu h]⟩
                · exact absurd hb hnb
            have e1 : (1 : UInt8) ≠ 2 := by decide
            simp only [deserialize, M.bind_run, alloc_run, e1.symm, if_false, if_true]
            have k2 := key h.next { (h.put h.next Node.empty) with next := h.next + 1 }
            simp only [M.bind_run] at k2
            rw [k2]
        · refine .inr ⟨?_, ?_⟩
          · intro hb; cases hb with | inList hx hb => exact hbr ⟨_, hx, hb⟩
          · by_cases hl : l = []
            · subst hl
              exact ⟨.empty, .emptyList, fun h => builds_empty h⟩
            · obtain ⟨ts, hlen, hp⟩ := forall_exists_list (P := fun x t => Means x t ∧ ∀ h, Builds (deserialize n x) h t) l (by
                intro x hx
                rcases hch x hx with ⟨hb, _⟩ | ⟨_, t, hm, hb⟩
                · exact absurd ⟨x, hx, hb⟩ hbr
                · exact ⟨t, hm, hb⟩)
              refine ⟨.list ts, .list hl hlen ?_, fun h => ?_⟩
              · intro i f t h1 h2
                rw [List.getElem?_eq_some_iff] at h1 h2
                obtain ⟨h1, rfl⟩ := h1
                obtain ⟨h2, rfl⟩ := h2
                exact (hp i h1 h2).1
              · exact builds_list (deserialize n) l ts h hl hlen (fun i h1 h2 h'' => (hp i h1 h2).2 h'')
    by_cases h3 : dt = 3
    · subst h3
      have e1 : ¬ (3 : UInt8) = 1 := by decide
      have e2 : ¬ (3 : UInt8) = 2 := by decide
      cases k with
      | none => exact .inl ⟨.keys, fun h => by simp [deserialize, alloc_run, e1, e2]⟩
      | some k =>
      cases c with
      | none => exact .inl ⟨.contents, fun h => by simp [deserialize, alloc_run, e1, e2]⟩
      | some c =>
        simp only [FB.depth.depthO] at hd
        have hch : ∀ x ∈ c, _ := fun x hx => ih x (by have := FB.depth_mem_list hx; omega)
        have hzc : ∀ e ∈ k.zip c, e.2 ∈ c.take k.length := by
          intro e he
          obtain ⟨i, hi, rfl⟩ := List.mem_iff_getElem.mp he
          simp only [List.getElem_zip]
          rw [List.mem_iff_getElem]
          simp only [List.length_zip] at hi
          exact ⟨i, by simp; omega, by simp⟩
        by_cases hbr : ∃ x ∈ c.take k.length, Broken x
        · refine .inl ⟨?_, fun h => ?_⟩
          · obtain ⟨x, hx, hb⟩ := hbr; exact .inDict hx hb
          · have key : ∀ a h, M.each (fun (kx : Str × FB) => do let d ← deserialize n kx.2; on a (Node.setKey kx.1 (some d))) (k.zip c) h = .ub := by
              intro a
              refine each_ub _ _ ?_ ?_
              · intro x hx
                rcases hch x.2 (List.mem_of_mem_take (hzc x hx)) with ⟨_, hu⟩ | ⟨_, t, _, hb⟩
                · exact .inl fun h => by rw [M.bind_run, hu h]
                · refine .inr fun h => ?_
                  obtain ⟨a, h', e, _⟩ := hb h
                  exact ⟨_, by rw [M.bind_run, e]; rfl⟩
              · obtain ⟨x, hx, hb⟩ := hbr
                rcases hch x (List.mem_of_mem_take hx) with ⟨_, hu⟩ | ⟨hnb, _⟩
                · obtain ⟨i, hi, rfl⟩ := List.mem_iff_getElem.mp hx
                  simp only [List.length_take] at hi
                  refine ⟨(k[i]'(by omega), c[i]'(by omega)), ?_, fun h => ?_⟩
                  · rw [List.mem_iff_getElem]; exact ⟨i, by simp; omega, by simp⟩
                  · simp only [List.getElem_take] at hu
                    rw [M.bind_run, hu h]
                · exact absurd hb hnb
            simp only [deserialize, M.bind_run, alloc_run, e1, e2, if_false, if_true]
            have k2 := key h.next { (h.put h.next Node.empty) with next := h.next + 1 }
            simp only [M.bind_run] at k2
            rw [k2]
        · refine .inr ⟨?_, ?_⟩
          · intro hb; cases hb with | inDict hx hb => exact hbr ⟨_, hx, hb⟩
          · by_cases hk : k = []
            · subst hk
              refine ⟨.empty, .emptyDict (.inl rfl), fun h => ?_⟩
              simp only [deserialize, e1, e2, if_false, if_true, List.zip_nil_left]
              exact builds_empty h
            by_cases hc : c = []
            · subst hc
              refine ⟨.empty, .emptyDict (.inr rfl), fun h => ?_⟩
              simp only [deserialize, e1, e2, if_false, if_true, List.zip_nil_right]
              exact builds_empty h
            obtain ⟨ts, hlen, hp⟩ := forall_exists_list (P := fun (x : Str × FB) t => Means x.2 t ∧ ∀ h, Builds (deserialize n x.2) h t) (k.zip c) (by
                intro x hx
                rcases hch x.2 (List.mem_of_mem_take (hzc x hx)) with ⟨hb, _⟩ | ⟨_, t, hm, hb⟩
                · exact absurd ⟨x.2, hzc x hx, hb⟩ hbr
                · exact ⟨t, hm, hb⟩)
            have hzl : (k.zip c).length = min k.length c.length := List.length_zip
            have hzne : k.zip c ≠ [] := by
              intro he
              rw [he] at hzl
              have : 0 < k.length := List.length_pos_iff.mpr hk
              have : 0 < c.length := List.length_pos_iff.mpr hc
              simp only [List.length_nil] at hzl; omega
            have hel : ∀ (i : Nat) kt, (((k.zip c).map Prod.fst).zip ts)[i]? = some kt →
                ∃ (h1 : i < k.length) (h2 : i < c.length) (h3 : i < ts.length), kt = (k[i], ts[i]) := by
              intro i kt hi
              rw [List.getElem?_eq_some_iff] at hi
              obtain ⟨hi, rfl⟩ := hi
              simp only [List.length_zip, List.length_map] at hi
              exact ⟨by omega, by omega, by omega, by simp⟩
            refine ⟨.dict (Dict.insertAll [] (((k.zip c).map Prod.fst).zip ts)),
              .dict (ms := ((k.zip c).map Prod.fst).zip ts) hk hc ?_ ?_ ?_ (insertAll_pairwise _) (mem_insertAll_iff _), fun h => ?_⟩
            · rw [List.length_zip, List.length_map, ← hlen, hzl]; omega
            · intro i kt hi
              obtain ⟨h1, h2, h3, rfl⟩ := hel i kt hi
              simp [h1]
            · intro i kt f hi hf
              obtain ⟨h1, h2, h3, rfl⟩ := hel i kt hi
              rw [List.getElem?_eq_getElem h2, Option.some.injEq] at hf
              subst hf
              have := (hp i (by rw [hzl]; omega) h3).1
              simpa using this
            · simp only [deserialize, e1, e2, if_false, if_true]
              exact builds_dict Prod.fst (fun kx => deserialize n kx.2) (k.zip c) ts h hzne hlen (fun i h1 h2 h'' => (hp i h1 h2).2 h'')
    · refine .inr ⟨?_, .empty, .unknown (by simp [h1, h2, h3]), fun h => ?_⟩
      · intro hb; cases hb <;> first | exact h1 rfl | exact h2 rfl | exact h3 rfl
      · simp only [deserialize, h1, h2, h3, if_false]
        exact builds_empty h

theorem pairwise_sorted {ds : List (Str × Tree)} (h : ds.Pairwise (fun e f => e.1 < f.1)) : Dict.Sorted (V := Tree) ds :=
  h.imp (fun h => Str.lt_iff.mpr h)

theorem sorted_mem_ext {ds es : List (Str × Tree)} (hd : Dict.Sorted (V := Tree) ds) (he : Dict.Sorted (V := Tree) es)
    (h : ∀ kt, kt ∈ ds ↔ kt ∈ es) : ds = es := by
  refine Dict.ext hd he ?_
  intro k
  cases hf : Dict.find k ds with
  | some v => rw [Dict.mem_find he ((h _).mp (Dict.find_some_mem hf))]
  | none =>
    symm
    rw [Dict.find_eq_none] at hf ⊢
    intro e hm; exact hf e ((h e).mpr hm)

theorem FB.depth_pos (f : FB) : 0 < f.depth := by cases f; simp only [FB.depth]; omega

end LP
