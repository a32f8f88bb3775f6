import Verif.Spec.Tree
import Verif.Lemma.Dict
/-! Induction principle and basic lemmas for trees and their heap representation. -/
namespace LP

/-- Induction over trees with hypotheses for all children. -/
theorem Tree.ind {P : Tree → Prop} (empty : P .empty) (value : ∀ v, P (.value v))
    (list : ∀ ts : List Tree, (∀ t ∈ ts, P t) → P (.list ts))
    (dict : ∀ ds : List (Str × Tree), (∀ e ∈ ds, P e.2) → P (.dict ds)) : ∀ t, P t := by
  intro t
  refine Tree.rec (motive_1 := P) (motive_2 := fun ts => ∀ t ∈ ts, P t)
    (motive_3 := fun ds => ∀ e ∈ ds, P e.2) (motive_4 := fun e => P e.2)
    empty value list dict ?_ ?_ ?_ ?_ ?_ t
  · simp
  · intro t ts h1 h2 u hu
    simp only [List.mem_cons] at hu
    rcases hu with rfl | hu
    · exact h1
    · exact h2 u hu
  · simp
  · intro e ds h1 h2 u hu
    simp only [List.mem_cons] at hu
    rcases hu with rfl | hu
    · exact h1
    · exact h2 u hu
  · intro k t h; exact h

namespace Tree

theorem depth_mem_list {t : Tree} {ts : List Tree} (h : t ∈ ts) : t.depth ≤ depth.depthL ts := by
  induction ts with
  | nil => simp at h
  | cons u us ih =>
    simp only [List.mem_cons] at h
    simp only [depth.depthL]
    rcases h with rfl | h
    · omega
    · have := ih h; omega

theorem depth_mem_dict {e : Str × Tree} {ds : List (Str × Tree)} (h : e ∈ ds) : e.2.depth ≤ depth.depthD ds := by
  induction ds with
  | nil => simp at h
  | cons u us ih =>
    simp only [List.mem_cons] at h
    simp only [depth.depthD]
    rcases h with rfl | h
    · omega
    · have := ih h; omega

theorem depth_pos (t : Tree) : 0 < t.depth := by
  cases t <;> simp only [depth] <;> omega

end Tree

theorem RepL_iff {h : Heap} {S : Addr → Prop} {ts : List Tree} {ps : List Ptr} :
    RepL h S ts ps ↔ ps.length = ts.length ∧
      ∀ i (h1 : i < ts.length) (h2 : i < ps.length), ∃ b, ps[i] = some b ∧ Rep h S ts[i] b := by
  induction ts generalizing ps with
  | nil => simp [RepL]
  | cons t ts ih =>
    simp only [RepL]
    constructor
    · rintro ⟨b, qs, rfl, hb, hq⟩
      rw [ih] at hq
      refine ⟨by simp [hq.1], ?_⟩
      intro i h1 h2
      cases i with
      | zero => exact ⟨b, rfl, hb⟩
      | succ i => exact hq.2 i (by simpa using h1) (by simpa using h2)
    · rintro ⟨hl, hh⟩
      cases ps with
      | nil => simp at hl
      | cons p qs =>
        obtain ⟨b, hb, hr⟩ := hh 0 (by simp) (by simp)
        simp only [List.getElem_cons_zero] at hb
        subst hb
        refine ⟨b, qs, rfl, hr, ih.mpr ⟨by simpa using hl, ?_⟩⟩
        intro i h1 h2
        exact hh (i + 1) (by simpa using h1) (by simpa using h2)

theorem RepD_iff {h : Heap} {S : Addr → Prop} {ds : List (Str × Tree)} {d : Dict Ptr} :
    RepD h S ds d ↔ d.map Prod.fst = ds.map Prod.fst ∧ RepL h S (ds.map Prod.snd) (d.map Prod.snd) := by
  induction ds generalizing d with
  | nil => simp [RepD, RepL]
  | cons e ds ih =>
    obtain ⟨k, t⟩ := e
    simp only [RepD, List.map_cons, RepL]
    constructor
    · rintro ⟨b, e, rfl, hb, he⟩
      rw [ih] at he
      exact ⟨by simp [he.1], b, _, rfl, hb, he.2⟩
    · rintro ⟨hk, b, qs, hb, hr, hq⟩
      cases d with
      | nil => simp at hk
      | cons x d =>
        obtain ⟨k', p⟩ := x
        simp only [List.map_cons, List.cons.injEq] at hk hb
        obtain ⟨rfl, hk⟩ := hk
        obtain ⟨rfl, rfl⟩ := hb
        exact ⟨b, d, rfl, hr, ih.mpr ⟨hk, hq⟩⟩

/-- The representation of a tree depends only on the objects in `S`, and `S` may be enlarged. -/
theorem Rep.mono {h h' : Heap} {S S' : Addr → Prop} (hS : ∀ a, S a → S' a)
    (hn : ∀ a, S a → h'.node a = h.node a) : ∀ (t : Tree) (a : Addr), Rep h S t a → Rep h' S' t a := by
  intro t
  induction t using Tree.ind with
  | empty => intro a hr; exact ⟨hS _ hr.1, by rw [hn _ hr.1]; exact hr.2⟩
  | value v => intro a hr; exact ⟨hS _ hr.1, by rw [hn _ hr.1]; exact hr.2⟩
  | list ts ih =>
    intro a hr
    obtain ⟨hs, ps, hp, hl⟩ := hr
    refine ⟨hS _ hs, ps, by rw [hn _ hs]; exact hp, ?_⟩
    rw [RepL_iff] at hl ⊢
    refine ⟨hl.1, fun i h1 h2 => ?_⟩
    obtain ⟨b, hb, hr⟩ := hl.2 i h1 h2
    exact ⟨b, hb, ih _ (List.getElem_mem h1) b hr⟩
  | dict ds ih =>
    intro a hr
    obtain ⟨hs, d, hp, hsd, hl⟩ := hr
    refine ⟨hS _ hs, d, by rw [hn _ hs]; exact hp, hsd, ?_⟩
    rw [RepD_iff, RepL_iff] at hl ⊢
    refine ⟨hl.1, hl.2.1, fun i h1 h2 => ?_⟩
    obtain ⟨b, hb, hr⟩ := hl.2.2 i h1 h2
    refine ⟨b, hb, ?_⟩
    have h1' : i < ds.length := by simpa using h1
    have := ih ds[i] (List.getElem_mem h1') b
    simp only [List.getElem_map] at hr ⊢
    exact this hr

theorem RepL.mono {h h' : Heap} {S S' : Addr → Prop} (hS : ∀ a, S a → S' a)
    (hn : ∀ a, S a → h'.node a = h.node a) {ts : List Tree} {ps : List Ptr} (hr : RepL h S ts ps) :
    RepL h' S' ts ps := by
  rw [RepL_iff] at hr ⊢
  refine ⟨hr.1, fun i h1 h2 => ?_⟩
  obtain ⟨b, hb, hr⟩ := hr.2 i h1 h2
  exact ⟨b, hb, Rep.mono hS hn _ _ hr⟩

theorem RepD.mono {h h' : Heap} {S S' : Addr → Prop} (hS : ∀ a, S a → S' a)
    (hn : ∀ a, S a → h'.node a = h.node a) {ds : List (Str × Tree)} {d : Dict Ptr} (hr : RepD h S ds d) :
    RepD h' S' ds d := by
  rw [RepD_iff] at hr ⊢
  exact ⟨hr.1, RepL.mono hS hn hr.2⟩

theorem Rep.mem {h : Heap} {S : Addr → Prop} {t : Tree} {a : Addr} (hr : Rep h S t a) : S a := by
  cases t <;> exact hr.1

/-- A heap address denotes at most one tree. -/
theorem Rep.unique {h : Heap} {S S' : Addr → Prop} : ∀ (t u : Tree) (a : Addr), Rep h S t a → Rep h S' u a → t = u := by
  have key : ∀ (ts us : List Tree) (ps : List Ptr),
      (∀ t ∈ ts, ∀ (u : Tree) (a : Addr), Rep h S t a → Rep h S' u a → t = u) →
      RepL h S ts ps → RepL h S' us ps → ts = us := by
    intro ts
    induction ts with
    | nil => intro us ps _ h1 h2; simp only [RepL] at h1; subst h1; cases us <;> simp [RepL] at h2 ⊢
    | cons t ts ih =>
      intro us ps hh h1 h2
      simp only [RepL] at h1
      obtain ⟨b, qs, rfl, hb, hq⟩ := h1
      cases us with
      | nil => simp [RepL] at h2
      | cons u us =>
        simp only [RepL] at h2
        obtain ⟨b', qs', he, hb', hq'⟩ := h2
        simp only [List.cons.injEq, Option.some.injEq] at he
        obtain ⟨rfl, rfl⟩ := he
        rw [hh t (by simp) u b hb hb', ih us qs (fun t ht => hh t (by simp [ht])) hq hq']
  intro t
  induction t using Tree.ind with
  | empty => intro u a h1 h2; cases u <;> simp_all [Rep]
  | value v => intro u a h1 h2; cases u <;> simp_all [Rep]
  | list ts ih =>
    intro u a h1 h2
    cases u with
    | list us =>
      obtain ⟨_, ps, hp, hl⟩ := h1
      obtain ⟨_, ps', hp', hl'⟩ := h2
      rw [hp] at hp'
      simp only [Node.mk.injEq, true_and, and_true] at hp'
      subst hp'
      rw [key ts us ps ih hl hl']
    | dict ds => obtain ⟨_, d, hd, _⟩ := h2; obtain ⟨_, ps, hp, _⟩ := h1; rw [hp] at hd; simp at hd
    | _ => simp_all [Rep]
  | dict ds ih =>
    intro u a h1 h2
    cases u with
    | dict us =>
      obtain ⟨_, ps, hp, _, hl⟩ := h1
      obtain ⟨_, ps', hp', _, hl'⟩ := h2
      rw [hp] at hp'
      simp only [Node.mk.injEq, true_and, and_true] at hp'
      subst hp'
      rw [RepD_iff] at hl hl'
      have h1 := key (ds.map Prod.snd) (us.map Prod.snd) _
        (by intro t ht; simp only [List.mem_map] at ht; obtain ⟨e, he, rfl⟩ := ht; exact ih e he) hl.2 hl'.2
      have h2 : ds.map Prod.fst = us.map Prod.fst := by rw [← hl.1, hl'.1]
      congr 1
      have : ∀ (xs ys : List (Str × Tree)), xs.map Prod.fst = ys.map Prod.fst → xs.map Prod.snd = ys.map Prod.snd → xs = ys := by
        intro xs
        induction xs with
        | nil => intro ys h _; cases ys <;> simp_all
        | cons x xs ih =>
          intro ys h h'
          cases ys with
          | nil => simp at h
          | cons y ys =>
            simp only [List.map_cons, List.cons.injEq] at h h'
            rw [ih ys h.2 h'.2, Prod.ext h.1 h'.1]
      exact this _ _ h2 h1
    | list ts => obtain ⟨_, d, hd, _⟩ := h2; obtain ⟨_, ps, hp, _⟩ := h1; rw [hp] at hd; simp at hd
    | _ => simp_all [Rep]

/-- Looking a key up in the heap map and in the tree agree. -/
theorem RepD.find_some {h : Heap} {S : Addr → Prop} {ds : List (Str × Tree)} {d : Dict Ptr} (hr : RepD h S ds d)
    {k : Str} {t : Tree} (hk : Dict.find k ds = some t) : ∃ b, Dict.find k d = some (some b) ∧ Rep h S t b := by
  induction ds generalizing d with
  | nil => simp at hk
  | cons e ds ih =>
    obtain ⟨q, u⟩ := e
    simp only [RepD] at hr
    obtain ⟨b, e, rfl, hb, he⟩ := hr
    simp only [Dict.find] at hk ⊢
    split at hk
    · simp_all
    · rename_i hne; simp only [hne, if_false]; exact ih he hk

theorem RepD.find_none {h : Heap} {S : Addr → Prop} {ds : List (Str × Tree)} {d : Dict Ptr} (hr : RepD h S ds d)
    {k : Str} (hk : Dict.find k ds = none) : Dict.find k d = none := by
  rw [Dict.find_eq_none] at hk ⊢
  rw [RepD_iff] at hr
  intro e he
  have : e.1 ∈ ds.map Prod.fst := by rw [← hr.1]; exact List.mem_map_of_mem he
  rw [List.mem_map] at this
  obtain ⟨x, hx, hx'⟩ := this
  rw [← hx']; exact hk x hx

theorem RepD.insert {h : Heap} {S : Addr → Prop} {ds : List (Str × Tree)} {d : Dict Ptr} (hr : RepD h S ds d)
    {k : Str} {t : Tree} {b : Addr} (hb : Rep h S t b) : RepD h S (Dict.insert k t ds) (Dict.insert k (some b) d) := by
  induction ds generalizing d with
  | nil => simp only [RepD] at hr; subst hr; simp [Dict.insert, RepD, hb]
  | cons e ds ih =>
    obtain ⟨q, u⟩ := e
    simp only [RepD] at hr
    obtain ⟨c, e, rfl, hc, he⟩ := hr
    simp only [Dict.insert]
    split
    · exact ⟨b, e, rfl, hb, he⟩
    · split
      · exact ⟨b, _, rfl, hb, c, e, rfl, hc, he⟩
      · exact ⟨c, _, rfl, hc, ih he⟩

theorem RepD.erase {h : Heap} {S : Addr → Prop} {ds : List (Str × Tree)} {d : Dict Ptr} (hr : RepD h S ds d)
    (k : Str) : RepD h S (Dict.erase k ds) (Dict.erase k d) := by
  induction ds generalizing d with
  | nil => simp only [RepD] at hr; subst hr; simp [Dict.erase, RepD]
  | cons e ds ih =>
    obtain ⟨q, u⟩ := e
    simp only [RepD] at hr
    obtain ⟨c, e, rfl, hc, he⟩ := hr
    simp only [Dict.erase]
    split
    · exact he
    · exact ⟨c, _, rfl, hc, ih he⟩

theorem RepL.append {h : Heap} {S : Addr → Prop} {ts us : List Tree} {ps qs : List Ptr} (h1 : RepL h S ts ps)
    (h2 : RepL h S us qs) : RepL h S (ts ++ us) (ps ++ qs) := by
  induction ts generalizing ps with
  | nil => simp only [RepL] at h1; subst h1; simpa
  | cons t ts ih =>
    simp only [RepL] at h1
    obtain ⟨b, e, rfl, hb, he⟩ := h1
    exact ⟨b, _, rfl, hb, ih he⟩

end LP
