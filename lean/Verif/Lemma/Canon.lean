import Verif.Lemma.Path
/-! Documents held by datagrams have sorted dictionaries at every level, so they are determined by their content. -/
namespace LP
open Heap Tree

/-- All dictionaries are sorted. -/
inductive Canon : Tree → Prop where
  | empty : Canon .empty
  | value (v : Val) : Canon (.value v)
  | list {ts : List Tree} : (∀ t ∈ ts, Canon t) → Canon (.list ts)
  | dict {ds : List (Str × Tree)} : Dict.Sorted (V := Tree) ds → (∀ e ∈ ds, Canon e.2) → Canon (.dict ds)

theorem Rep.canon {h : Heap} {S : Addr → Prop} : ∀ (t : Tree) (a : Nat), Rep h S t a → Canon t := by
  refine Tree.ind ?_ ?_ ?_ ?_
  · intro a _; exact .empty
  · intro v a _; exact .value v
  · intro ts ih a hr
    obtain ⟨_, ps, _, hrl⟩ := hr
    rw [RepL_iff] at hrl
    refine .list ?_
    intro t ht
    obtain ⟨i, hi, rfl⟩ := List.mem_iff_getElem.mp ht
    obtain ⟨b, _, hb⟩ := hrl.2 i hi (by rw [hrl.1]; exact hi)
    exact ih _ ht b hb
  · intro ds ih a hr
    obtain ⟨_, d, _, hs, hrd⟩ := hr
    refine .dict (Rep.dict_sorted hs hrd) ?_
    intro e he
    rw [RepD_iff] at hrd
    obtain ⟨i, hi, rfl⟩ := List.mem_iff_getElem.mp he
    have h2 := hrd.2
    rw [RepL_iff] at h2
    obtain ⟨b, _, hb⟩ := h2.2 i (by simpa using hi) (by have := h2.1; simp at this; simp; omega)
    simp only [List.getElem_map] at hb
    exact ih _ he b hb

theorem Canon.alike {t : Tree} (ht : Canon t) : ∀ {u : Tree}, Canon u → Alike t u → t = u := by
  induction ht with
  | empty => intro u _ h; cases h; rfl
  | value v => intro u _ h; cases h; rfl
  | @list ts _ ih =>
    intro u hu h
    cases h with
    | @list _ us hl hall =>
    cases hu with
    | list hu =>
    congr 1
    refine List.ext_getElem hl ?_
    intro i h1 h2
    exact ih _ (List.getElem_mem h1) (hu _ (List.getElem_mem h2))
      (hall i _ _ (List.getElem?_eq_getElem h1) (List.getElem?_eq_getElem h2))
  | @dict ds hs _ ih =>
    intro u hu h
    cases h with
    | @dict _ es hk hall =>
    cases hu with
    | dict hes hu =>
    congr 1
    refine Dict.ext hs hes ?_
    intro k
    have h1 := hk k
    cases hd : Dict.find k ds with
    | none => cases he : Dict.find k es with
      | none => rfl
      | some u => simp [hd, he] at h1
    | some t => cases he : Dict.find k es with
      | none => simp [hd, he] at h1
      | some u =>
        have := ih _ (Dict.find_some_mem hd) (hu _ (Dict.find_some_mem he)) (hall k t u hd he)
        simp only at this; rw [this]

theorem Alike.refl : ∀ t : Tree, Alike t t := by
  refine Tree.ind .empty .value ?_ ?_
  · intro ts ih
    refine .list rfl ?_
    intro i t u h1 h2
    rw [h1] at h2; simp only [Option.some.injEq] at h2; subst h2
    exact ih t (List.mem_of_getElem? h1)
  · intro ds ih
    refine .dict (fun _ => rfl) ?_
    intro k t u h1 h2
    rw [h1] at h2; simp only [Option.some.injEq] at h2; subst h2
    exact ih _ (Dict.find_some_mem h1)

theorem Canon.same_self {t : Tree} (ht : Canon t) : Same t t ↔ ¬ HasNaN t := by
  induction ht with
  | empty => exact ⟨fun _ => nofun, fun _ => .empty⟩
  | value v =>
    constructor
    · intro h hn
      cases hn with
      | here hn =>
        cases h with
        | value h => cases h with
          | dbl _ _ _ h => exact h hn
    · intro h
      refine .value ?_
      cases v with
      | str s => exact .str s
      | int i => exact .int i
      | bool b => exact .bool b
      | other n c => exact .other n c
      | dbl d => exact .dbl d d rfl (fun hn => h (.here hn))
  | @list ts _ ih =>
    constructor
    · intro h hn
      cases hn with
      | list hm hn =>
        obtain ⟨i, hi, rfl⟩ := List.mem_iff_getElem.mp hm
        cases h with
        | list _ hall =>
          exact (ih _ hm).mp (hall i _ _ (List.getElem?_eq_getElem hi) (List.getElem?_eq_getElem hi)) hn
    · intro h
      refine .list rfl ?_
      intro i t u h1 h2
      rw [h1] at h2; simp only [Option.some.injEq] at h2; subst h2
      have hm := List.mem_of_getElem? h1
      exact (ih t hm).mpr (fun hn => h (.list hm hn))
  | @dict ds hs _ ih =>
    constructor
    · intro h hn
      cases hn with
      | @dict k t _ hm hn =>
        cases h with
        | dict _ hall =>
          have hf := Dict.mem_find hs hm
          exact (ih _ hm).mp (hall k t t hf hf) hn
    · intro h
      refine .dict (fun _ => rfl) ?_
      intro k t u h1 h2
      rw [h1] at h2; simp only [Option.some.injEq] at h2; subst h2
      have hm := Dict.find_some_mem h1
      exact (ih _ hm).mpr (fun hn => h (.dict hm hn))

theorem Holds.canon {s : DState} {x : Nat} {t : Tree} (h : Holds s x t) : Canon t := by
  obtain ⟨a, _, hr⟩ := h; exact Rep.canon _ _ hr

theorem Holds.unique {s : DState} {x : Nat} {t u : Tree} (h : Holds s x t) (h' : Holds s x u) : t = u := by
  obtain ⟨a, ha, hr⟩ := h
  obtain ⟨b, hb, hr'⟩ := h'
  rw [ha] at hb; simp only [Option.some.injEq] at hb; subst hb
  exact Rep.unique _ _ _ hr hr'

theorem kids_children {n : Node Ptr} {p : Ptr} (h : p ∈ n.kids) : p ∈ n.children := by
  unfold Node.kids at h
  unfold Node.children
  split at h
  · exact List.mem_append.mpr (Or.inl h)
  · exact List.mem_append.mpr (Or.inr h)
  · cases h

theorem descends_le {h : Heap} (w : WF h) {a b : Nat} (ha : a < h.next) (hd : Descends h a b) : a ≤ b ∧ b < h.next := by
  induction hd with
  | refl => exact ⟨Nat.le_refl _, ha⟩
  | step _ hm ih =>
    obtain ⟨c, hc, h1, h2⟩ := w.up _ ih.2 _ (kids_children hm)
    simp only [Option.some.injEq] at hc; subst hc
    exact ⟨by omega, h2⟩

end LP
