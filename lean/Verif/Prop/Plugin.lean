import Verif.Lemma.Plugin
/-!
# Plugin templates (C57, C58, C59, C75)
-/
namespace LP.Plugin

/-! ## Histories of one template -/

/-- A template named `ident` whose library creates instances with `f`, used by any number of `Instantiate` calls (under
any parent buses), some of which may fail; in between anything may happen to the buses. The list holds the names of the
instances returned so far, oldest first. -/
inductive History (early : Bool) (ident : Str) (f : Str → Made) : TS → List Str → Prop where
  | new (w : Bus.World) (log : List Ev) : History early ident f ⟨⟨ident, some f, []⟩, w, log⟩ []
  | done {s s' : TS} {names : List Str} {p : Option Nat} {n : Str} {i : Option Inst} :
      History early ident f s names → instantiate early p s = .ok (n, i) s' → History early ident f s' (names ++ [n])
  | failed {s s' : TS} {names : List Str} {p : Option Nat} {e : Exn} :
      History early ident f s names → instantiate early p s = .throw e s' → History early ident f s' names
  | other {s : TS} {names : List Str} (w : Bus.World) (log : List Ev) :
      History early ident f s names → History early ident f { s with world := w, log := log } names

theorem History.ident {early : Bool} {ident : Str} {f : Str → Made} {s : TS} {names : List Str}
    (h : History early ident f s names) : s.tmpl.ident = ident ∧ s.tmpl.make = some f := by
  induction h with
  | new => exact ⟨rfl, rfl⟩
  | done _ hi ih => obtain ⟨k, _, _, _, _, ht⟩ := instantiate_tmpl hi; rw [ht]; exact ih
  | failed _ hi ih =>
    rcases instantiate_throw hi with ht | ⟨_, _, k, _, ht⟩ <;> rw [ht] <;> exact ih
  | other _ _ _ ih => exact ih

theorem History.taken {early : Bool} {ident : Str} {f : Str → Made} {s : TS} {names : List Str}
    (h : History early ident f s names) (hf : early = false ∨ ∀ n x, f n ≠ .throws x) :
    names = (List.range names.length).map (fun n => ident ++ natToStr n) ∧
      ∀ j, s.tmpl.indexedInstanceExists j = decide (j < names.length) := by
  induction h with
  | new => exact ⟨rfl, fun j => rfl⟩
  | @done s s' names p n i h hi ih =>
    obtain ⟨ih1, ih2⟩ := ih
    obtain ⟨k, hk, hfree, hbelow, hn, ht⟩ := instantiate_tmpl hi
    have hid := h.ident.1
    have hlen : k = names.length := by
      rw [ih2] at hfree
      have h1 : ¬ k < names.length := by simpa using hfree
      by_cases e : k = names.length
      · exact e
      · have := hbelow names.length (by omega)
        rw [ih2] at this; simp at this
    subst hlen
    constructor
    · rw [List.length_append, List.length_singleton, List.range_succ, List.map_append, ← ih1]
      simp at hn
      simp [hn, Template.name, hid]
    · intro j
      have h1 : s'.tmpl.indexedInstanceExists j
          = (s.tmpl.instances.insert (s.tmpl.name names.length) i).has (s.tmpl.name j) := by
        rw [ht]; rfl
      rw [h1, has_insert]
      have h2 : s.tmpl.instances.has (s.tmpl.name j) = decide (j < names.length) := ih2 j
      rw [h2]
      have h3 : (s.tmpl.name names.length = s.tmpl.name j) ↔ names.length = j :=
        ⟨name_inj, fun e => by rw [e]⟩
      simp only [h3, List.length_append, List.length_singleton]
      rw [Bool.eq_iff_iff]; simp; omega
  | @failed s s' names p e h hi ih =>
    rcases instantiate_throw hi with ht | ⟨he, hm, _⟩
    · refine ⟨(ih).1, fun j => ?_⟩
      rw [ht]; exact (ih).2 j
    · exfalso
      rcases hf with hf | hf
      · rw [hf] at he; cases he
      · rcases hm with hm | ⟨g, hm, n, x, hx⟩
        · rw [h.ident.2] at hm; cases hm
        · rw [h.ident.2] at hm; cases hm; exact hf n x hx
  | other _ _ _ ih => exact ih

/-! ## C57 -/

/-- The n-th instance is named `identifier` followed by n-1 in decimal: with a compiler that evaluates the call first,
in every history, including failing creations. -/
theorem C57_instance_names {ident : Str} {f : Str → Made} {s : TS} {names : List Str}
    (h : History false ident f s names) :
    names = (List.range names.length).map (fun n => ident ++ natToStr n) :=
  (h.taken (.inl rfl)).1

/-- With the other evaluation order: if the library's creation function never throws. -/
theorem C57_instance_names_any_order {early : Bool} {ident : Str} {f : Str → Made} {s : TS} {names : List Str}
    (hf : ∀ n x, f n ≠ .throws x) (h : History early ident f s names) :
    names = (List.range names.length).map (fun n => ident ++ natToStr n) :=
  (h.taken (.inr hf)).1

/-- `Instantiate` can be called again and again: after any history with fewer than 2^31 instances, the next call under a bus that is
attached to its parent and has no child of the next name returns the library's object under that name, if the library makes one. -/
theorem C57_next_instance {ident : Str} {f : Str → Made} {s : TS} {names : List Str} (h : History false ident f s names)
    (hn : names.length < 2147483648) (b : Nat) (hb : (s.world.bus b).attached = true)
    (hc : (s.world.bus b).children.find (ident ++ natToStr names.length) = none) (i : Inst)
    (hf : f (ident ++ natToStr names.length) = .object i) :
    ∃ s', instantiate false (some b) s = .ok (ident ++ natToStr names.length, some i) s' := by
  obtain ⟨h1, h2⟩ := h.taken (.inl rfl)
  obtain ⟨h3, h4⟩ := h.ident
  have hs : freeIndex s.tmpl.indexedInstanceExists intValues 0 = some names.length :=
    freeIndex_eq _ _ (Nat.zero_le _) (by unfold intValues; omega) (by rw [h2]; simp) (fun j _ hj => by rw [h2]; simpa using hj)
  have hne : ident ++ natToStr names.length ≠ [] := h3 ▸ name_ne_nil s.tmpl names.length
  simp only [instantiate, hs, Template.name, h3, Bus.createChildBus, hne, if_false, hc, hb, h4, hf]
  exact ⟨_, rfl⟩

/-- After 2^31 instances the index overflows `int` (PluginTemplate.cpp:28-31): the next call is undefined behaviour. -/
theorem C57_last_instance {ident : Str} {f : Str → Made} {s : TS} {names : List Str} (h : History false ident f s names)
    (hn : names.length = 2147483648) (p : Option Nat) : instantiate false p s = .ub := by
  obtain ⟨h1, h2⟩ := h.taken (.inl rfl)
  have hs : freeIndex s.tmpl.indexedInstanceExists intValues 0 = none := by
    cases he : freeIndex s.tmpl.indexedInstanceExists intValues 0 with
    | none => rfl
    | some k =>
      obtain ⟨k1, k2, k3, -⟩ := freeIndex_some he
      rw [h2] at k3
      simp only [decide_eq_false_iff_not] at k3
      unfold intValues at k2
      omega
  simp only [instantiate, hs]

/-- In every history the names of the instances returned are pairwise different. -/
theorem C57_names_distinct {early : Bool} {ident : Str} {f : Str → Made} {s : TS} {names : List Str}
    (h : History early ident f s names) : names.Nodup := by
  suffices hs : names.Nodup ∧ ∀ n ∈ names, s.tmpl.instances.has n = true from hs.1
  induction h with
  | new => exact ⟨List.nodup_nil, by simp⟩
  | @done s s' names p n i h hi ih =>
    obtain ⟨ih1, ih2⟩ := ih
    obtain ⟨k, hk, hfree, hbelow, hn, ht⟩ := instantiate_tmpl hi
    simp only at hn ht
    constructor
    · rw [List.nodup_append]
      refine ⟨ih1, by simp, ?_⟩
      intro a ha b hb
      simp at hb
      subst hb
      intro e
      subst e
      have := ih2 a ha
      rw [hn] at this
      rw [Template.indexedInstanceExists] at hfree
      rw [hfree] at this; cases this
    · intro m hm
      rw [ht]
      simp only [has_insert]
      rcases List.mem_append.1 hm with hm | hm
      · simp [ih2 m hm]
      · simp at hm; simp [hm, hn]
  | @failed s s' names p e h hi ih =>
    rcases instantiate_throw hi with ht | ⟨_, _, k, _, ht⟩
    · rw [ht]; exact ih
    · rw [ht]
      refine ⟨ih.1, fun n hn => ?_⟩
      simp [has_insert, ih.2 n hn]
  | other _ _ _ ih => exact ih

/-! ### The hypotheses are met -/

/-- A fresh root bus named "root". -/
def freshWorld : Bus.World := match Bus.newRoot (bs "root") with
  | .ok w => w
  | .error _ => { nb := 0, bus := fun _ => Bus.noBus, ns := 0, sub := fun _ => ⟨[], none, 0⟩, np := 0,
                  pub := fun _ => ⟨[], 0, false⟩, queue := [] }

/-- A library whose instances never fail. -/
def goodMaker : Str → Made := fun _ => .object ⟨none, none⟩

/-- `n` calls of `Instantiate` under the root bus; the names returned, `none` if a call does not return normally. -/
def instantiateTimes : Nat → TS → Option (TS × List Str)
  | 0, s => some (s, [])
  | n + 1, s => match instantiate false (some 0) s with
    | .ok (name, _) s' => (instantiateTimes n s').map (fun r => (r.1, name :: r.2))
    | _ => none

theorem instantiateTimes_history {ident : Str} {f : Str → Made} {n : Nat} {s s' : TS} {names more : List Str}
    (h : History false ident f s names) (hr : instantiateTimes n s = some (s', more)) :
    History false ident f s' (names ++ more) := by
  induction n generalizing s names more with
  | zero =>
    simp [instantiateTimes] at hr
    obtain ⟨rfl, rfl⟩ := hr
    simpa using h
  | succ n ih =>
    rw [instantiateTimes] at hr
    split at hr
    · rename_i name i s1 hi
      rw [Option.map_eq_some_iff] at hr
      obtain ⟨⟨a, b⟩, hr, e⟩ := hr
      simp at e
      obtain ⟨rfl, rfl⟩ := e
      have := ih (h.done hi) hr
      simpa using this
    · cases hr

example : (instantiateTimes 11 ⟨⟨bs "A", some goodMaker, []⟩, freshWorld, []⟩).map (fun r => r.2) =
    some [bs "A0", bs "A1", bs "A2", bs "A3", bs "A4", bs "A5", bs "A6", bs "A7", bs "A8", bs "A9", bs "A10"] := by
  decide +kernel

example : ∃ s, History false (bs "A") goodMaker s [bs "A0", bs "A1", bs "A2"] := by
  have : ∃ s, instantiateTimes 3 ⟨⟨bs "A", some goodMaker, []⟩, freshWorld, []⟩ = some (s, [bs "A0", bs "A1", bs "A2"]) := by
    have h : (instantiateTimes 3 ⟨⟨bs "A", some goodMaker, []⟩, freshWorld, []⟩).map (fun r => r.2)
        = some [bs "A0", bs "A1", bs "A2"] := by decide +kernel
    rw [Option.map_eq_some_iff] at h
    obtain ⟨⟨s, l⟩, h1, h2⟩ := h
    simp at h2
    exact ⟨s, by rw [h1, h2]⟩
  obtain ⟨s, hs⟩ := this
  exact ⟨s, by simpa using instantiateTimes_history (.new _ _) hs⟩

/-- Under buses of its own a library that never fails can be instantiated any number of times below the limit: also the hypothesis
of `C57_last_instance` can be met. -/
theorem grown (n : Nat) (hn : n ≤ 2147483648) : ∃ s names, History false (bs "A") goodMaker s names ∧ names.length = n := by
  induction n with
  | zero => exact ⟨_, [], .new freshWorld [], rfl⟩
  | succ n ih =>
    obtain ⟨s, names, h, rfl⟩ := ih (by omega)
    obtain ⟨s', hs'⟩ := C57_next_instance (h.other freshWorld []) (by omega) 0 rfl
      (show (freshWorld.bus 0).children.find _ = none from rfl) ⟨none, none⟩ rfl
    exact ⟨s', _, (h.other freshWorld []).done hs', by simp⟩

example : ∃ s names, History false (bs "A") goodMaker s names ∧ names.length = 2147483648 := grown _ (Nat.le_refl _)

example : ∃ s names, History false (bs "A") goodMaker s names ∧ names.length = 1000 ∧ (s.world.bus 0).attached = true ∧
    (s.world.bus 0).children.find (bs "A" ++ natToStr 1000) = none ∧ goodMaker (bs "A" ++ natToStr 1000) = .object ⟨none, none⟩ := by
  obtain ⟨s, names, h, e⟩ := grown 1000 (by omega)
  exact ⟨_, names, h.other freshWorld [], e, rfl, rfl, rfl⟩

/-! ## C58 -/

/-- The smallest index that is free in a template. -/
def SmallestFree (t : Template) (k : Nat) : Prop :=
  k < 2147483648 ∧ t.instances.find (t.ident ++ natToStr k) = none ∧
    ∀ j, j < k → ∃ v, t.instances.find (t.ident ++ natToStr j) = some v

theorem SmallestFree.search {t : Template} {k : Nat} (h : SmallestFree t k) :
    freeIndex t.indexedInstanceExists intValues 0 = some k := by
  obtain ⟨h1, h2, h3⟩ := h
  refine freeIndex_eq _ _ (Nat.zero_le _) (by unfold intValues; omega) ?_ ?_
  · simp [Template.indexedInstanceExists, Dict.has, Template.name, h2]
  · intro j _ hj
    obtain ⟨v, hv⟩ := h3 j hj
    simp [Template.indexedInstanceExists, Dict.has, Template.name, hv]

/-- `Instantiate` throws `DuplicateKeyException` exactly when the name with the smallest free index is already the name
of a child bus of the parent; nothing is changed. -/
theorem C58_throws_iff {early : Bool} {b k : Nat} {s : TS} (hk : SmallestFree s.tmpl k) :
    (∃ c, (s.world.bus b).children.find (s.tmpl.ident ++ natToStr k) = some c) ↔
      ∃ key, instantiate early (some b) s = .throw (.duplicateKey key) s ∧ key = s.tmpl.ident ++ natToStr k := by
  have hne : s.tmpl.ident ++ natToStr k ≠ [] := name_ne_nil s.tmpl k
  constructor
  · rintro ⟨c, hc⟩
    refine ⟨_, ?_, rfl⟩
    unfold instantiate
    rw [hk.search]
    simp [Bus.createChildBus, Template.name, hne, hc]
  · rintro ⟨key, h, rfl⟩
    unfold instantiate at h
    rw [hk.search] at h
    simp only [Bus.createChildBus, Template.name, hne, if_false] at h
    cases hf : (s.world.bus b).children.find (s.tmpl.ident ++ natToStr k) with
    | some c => exact ⟨c, rfl⟩
    | none =>
      exfalso
      simp only [hf] at h
      by_cases ha : (s.world.bus b).attached = false
      · simp [ha] at h
      · simp only [ha, if_false] at h
        cases hm : s.tmpl.make with
        | none => simp [hm] at h
        | some g =>
          simp only [hm] at h
          cases hg : g (s.tmpl.ident ++ natToStr k) with
          | object i => simp [hg] at h
          | null => simp [hg] at h
          | throws e =>
            simp [hg, ha] at h
            have h3 := congrArg (fun t : TS => t.world.nb) h.2
            cases early <;> simp [Bus.World.setBus] at h3

/-- What a normal return of `Instantiate` does to the buses. -/
theorem instantiate_world {early : Bool} {b : Nat} {s s' : TS} {r : Str × Option Inst}
    (h : instantiate early (some b) s = .ok r s') :
    (s'.world.bus b).children.find r.1 = some s.world.nb ∧
      ∀ n c, (s.world.bus b).children.find n = some c → (s'.world.bus b).children.find n = some c := by
  unfold instantiate at h
  split at h
  · cases h
  · rename_i k hk
    dsimp only at h
    split at h
    · cases h
    · cases h
    · cases h
    · rename_i c w hc
      have key : (w.bus b).children.find (s.tmpl.name k) = some s.world.nb ∧
          ∀ n c, (s.world.bus b).children.find n = some c → (w.bus b).children.find n = some c := by
        unfold Bus.createChildBus at hc
        split at hc
        · cases hc
        · split at hc
          · cases hc
          · rename_i hfree
            split at hc
            · cases hc
            · cases hc
              simp only [Bus.World.setBus]
              refine ⟨by simp, fun n c hn => ?_⟩
              simp only [↓reduceIte]
              rw [Dict.find_insert]
              split
              · rename_i e; subst e; rw [hfree] at hn; cases hn
              · exact hn
      split at h
      · cases h
      · split at h
        · cases h
        · cases h; exact key
        · cases h; exact key

theorem instantiateTimes_world {n : Nat} {s s' : TS} {names : List Str}
    (h : instantiateTimes n s = some (s', names)) :
    (∀ m c, (s.world.bus 0).children.find m = some c → (s'.world.bus 0).children.find m = some c) ∧
      ∀ m ∈ names, ∃ c, (s'.world.bus 0).children.find m = some c := by
  induction n generalizing s names with
  | zero =>
    simp [instantiateTimes] at h
    obtain ⟨rfl, rfl⟩ := h
    exact ⟨fun _ _ h => h, by simp⟩
  | succ n ih =>
    rw [instantiateTimes] at h
    split at h
    · rename_i name i s1 hi
      rw [Option.map_eq_some_iff] at h
      obtain ⟨⟨a, l⟩, hr, e⟩ := h
      simp at e
      obtain ⟨rfl, rfl⟩ := e
      obtain ⟨h1, h2⟩ := instantiate_world hi
      obtain ⟨h3, h4⟩ := ih hr
      refine ⟨fun m c hm => h3 m c (h2 m c hm), ?_⟩
      intro m hm
      rcases List.mem_cons.1 hm with rfl | hm
      · exact ⟨_, h3 _ _ h1⟩
      · exact h4 m hm
    · cases h

theorem instantiateTimes_length {n : Nat} {s s' : TS} {names : List Str}
    (h : instantiateTimes n s = some (s', names)) : names.length = n := by
  induction n generalizing s names with
  | zero => simp [instantiateTimes] at h; simp [h.2.symm]
  | succ n ih =>
    rw [instantiateTimes] at h
    split at h
    · rw [Option.map_eq_some_iff] at h
      obtain ⟨⟨a, l⟩, hr, e⟩ := h
      simp at e
      obtain ⟨rfl, rfl⟩ := e
      simp [ih hr]
    · cases h

/-- Two templates with different identifiers clash: for every identifier `I` and every `d ≥ 1`, once `I` has `10 d + 1`
instances, the first `Instantiate` of the template `I` followed by `d` in decimal throws `DuplicateKeyException`. -/
theorem C58_collision {I : Str} {d : Nat} (hd : 1 ≤ d) {f g : Str → Made} {early : Bool} {w : Bus.World}
    {log : List Ev} {s : TS} {names : List Str}
    (h : instantiateTimes (10 * d + 1) ⟨⟨I, some f, []⟩, w, log⟩ = some (s, names)) :
    I ≠ I ++ natToStr d ∧
    instantiate early (some 0) ⟨⟨I ++ natToStr d, some g, []⟩, s.world, s.log⟩ =
      .throw (.duplicateKey (I ++ natToStr (10 * d))) ⟨⟨I ++ natToStr d, some g, []⟩, s.world, s.log⟩ := by
  constructor
  · intro e
    have := congrArg List.length e
    have h2 := (natToStr_digits d).1
    simp at this
    exact h2 this
  have hist := instantiateTimes_history (.new w log) h
  have hn := C57_instance_names hist
  have hl := instantiateTimes_length h
  have hmem : I ++ natToStr (10 * d) ∈ names := by
    simp at hn
    rw [hn, hl]
    simp only [List.mem_map, List.mem_range]
    exact ⟨10 * d, by omega, rfl⟩
  obtain ⟨c, hc⟩ := (instantiateTimes_world h).2 _ hmem
  have hsf : SmallestFree (⟨I ++ natToStr d, some g, []⟩ : Template) 0 :=
    ⟨by omega, rfl, fun j hj => by omega⟩
  have he : I ++ natToStr d ++ natToStr 0 = I ++ natToStr (10 * d) := by
    rw [natToStr_mul_ten hd, List.append_assoc]
    have : natToStr 0 = [48] := by rw [natToStr]; rfl
    rw [this]
  obtain ⟨key, h1, h2⟩ := (C58_throws_iff (early := early) (b := 0)
    (s := ⟨⟨I ++ natToStr d, some g, []⟩, s.world, s.log⟩) hsf).1 ⟨c, by simp only [he]; exact hc⟩
  rw [h1, h2, he]

/-- Templates whose identifiers differ and do not end in a digit never produce the same instance name. -/
theorem C58_no_collision {I J : Str} (hI : ∀ c, I.getLast? = some c → ¬ IsDigit c)
    (hJ : ∀ c, J.getLast? = some c → ¬ IsDigit c) (hne : I ≠ J) (i j : Nat) : I ++ natToStr i ≠ J ++ natToStr j :=
  fun h => hne (append_digits_inj (natToStr_digits i).2 (natToStr_digits j).2 hI hJ h)

/-! ### The hypotheses are met -/

example : ∃ s names, instantiateTimes (10 * 1 + 1) ⟨⟨bs "A", some goodMaker, []⟩, freshWorld, []⟩ = some (s, names) := by
  have : (instantiateTimes (10 * 1 + 1) ⟨⟨bs "A", some goodMaker, []⟩, freshWorld, []⟩).isSome = true := by decide +kernel
  obtain ⟨⟨s, l⟩, h⟩ := Option.isSome_iff_exists.1 this
  exact ⟨s, l, h⟩

example : SmallestFree ⟨bs "A", some goodMaker, [(bs "A0", none), (bs "A2", none)]⟩ 1 :=
  ⟨by decide, by decide +kernel, fun j hj => by
    have : j = 0 := by omega
    subst this; exact ⟨none, by rw [show natToStr 0 = [48] by rw [natToStr]; rfl]; rfl⟩⟩

example : (∀ c, (bs "SysInfo").getLast? = some c → ¬ IsDigit c) ∧ (∀ c, (bs "Link").getLast? = some c → ¬ IsDigit c) ∧
    bs "SysInfo" ≠ bs "Link" := by
  refine ⟨?_, ?_, by decide⟩ <;> intro c hc <;> simp [bs] at hc <;> subst hc <;> decide

/-! ## C75 -/

/-- A name once used for an instance is never free again: after any number of instances under the root bus, a new
template of the same identifier (as after unloading and loading the templates again) cannot be instantiated. -/
theorem C75_reloaded_template_fails {I : Str} {n : Nat} {f g : Str → Made} {early : Bool} {w : Bus.World}
    {log log' : List Ev} {s : TS} {names : List Str}
    (h : instantiateTimes (n + 1) ⟨⟨I, some f, []⟩, w, log⟩ = some (s, names)) :
    instantiate early (some 0) ⟨⟨I, some g, []⟩, s.world, log'⟩ =
      .throw (.duplicateKey (I ++ bs "0")) ⟨⟨I, some g, []⟩, s.world, log'⟩ := by
  have hist := instantiateTimes_history (.new w log) h
  have hn := C57_instance_names hist
  have hl := instantiateTimes_length h
  have h0 : natToStr 0 = bs "0" := by rw [natToStr]; rfl
  have hmem : I ++ natToStr 0 ∈ names := by
    simp at hn
    rw [hn, hl]
    simp only [List.mem_map, List.mem_range]
    exact ⟨0, by omega, rfl⟩
  obtain ⟨c, hc⟩ := (instantiateTimes_world h).2 _ hmem
  have hsf : SmallestFree (⟨I, some g, []⟩ : Template) 0 :=
    ⟨by omega, rfl, fun j hj => by omega⟩
  obtain ⟨key, h1, h2⟩ := (C58_throws_iff (early := early) (b := 0)
    (s := ⟨⟨I, some g, []⟩, s.world, log'⟩) hsf).1 ⟨c, hc⟩
  rw [h1, h2, h0]

/-- A creation that fails after its child bus was made: with the call evaluated first, every later `Instantiate` of the
template under that parent throws `DuplicateKeyException`. -/
theorem C75_failed_creation_blocks {b k : Nat} {s s' : TS} {e : Exn} (hk : SmallestFree s.tmpl k)
    (hfree : (s.world.bus b).children.find (s.tmpl.ident ++ natToStr k) = none) (hatt : (s.world.bus b).attached = true)
    (h : instantiate false (some b) s = .throw e s') :
    instantiate false (some b) s' = .throw (.duplicateKey (s.tmpl.ident ++ natToStr k)) s' := by
  have hne : s.tmpl.ident ++ natToStr k ≠ [] := name_ne_nil s.tmpl k
  have hs : s'.tmpl = s.tmpl ∧
      ((s'.world.bus b).children.find (s.tmpl.ident ++ natToStr k) = some s.world.nb) := by
    unfold instantiate at h
    rw [hk.search] at h
    simp only [Bus.createChildBus, Template.name, hne, if_false, hfree, hatt] at h
    cases hm : s.tmpl.make with
    | none =>
      simp [hm] at h
      obtain ⟨_, h⟩ := h
      subst h
      exact ⟨rfl, by simp [Bus.World.setBus]⟩
    | some g =>
      simp only [hm] at h
      cases hg : g (s.tmpl.ident ++ natToStr k) with
      | object i => simp [hg] at h
      | null => simp [hg] at h
      | throws e' =>
        simp [hg] at h
        obtain ⟨_, h⟩ := h
        subst h
        exact ⟨rfl, by simp [Bus.World.setBus]⟩
  obtain ⟨h1, h2⟩ := hs
  have hk' : SmallestFree s'.tmpl k := by rw [h1]; exact hk
  obtain ⟨key, h3, h4⟩ := (C58_throws_iff (early := false) (b := b) hk').1 ⟨_, by rw [h1]; exact h2⟩
  rw [h3, h4, h1]

/-- With the other evaluation order the failed creation leaves a null pointer among the instances, and unloading the
template dereferences it. -/
theorem C75_failed_creation_unload_undefined {b k : Nat} {s s' : TS} {e : Exn} (hk : SmallestFree s.tmpl k)
    (hfree : (s.world.bus b).children.find (s.tmpl.ident ++ natToStr k) = none) (hatt : (s.world.bus b).attached = true)
    (h : instantiate true (some b) s = .throw e s') (log : List Ev) : unload s'.tmpl log = .ub := by
  have hne : s.tmpl.ident ++ natToStr k ≠ [] := name_ne_nil s.tmpl k
  have hs : s'.tmpl.instances = s.tmpl.instances.insert (s.tmpl.ident ++ natToStr k) none := by
    unfold instantiate at h
    rw [hk.search] at h
    simp only [Bus.createChildBus, Template.name, hne, if_false, hfree, hatt] at h
    cases hm : s.tmpl.make with
    | none =>
      simp [hm] at h
      rw [← h.2]
    | some g =>
      simp only [hm] at h
      cases hg : g (s.tmpl.ident ++ natToStr k) with
      | object i => simp [hg] at h
      | null => simp [hg] at h
      | throws e' =>
        simp [hg] at h
        rw [← h.2]
  have hnull : ((s.tmpl.ident ++ natToStr k, none) : Str × Option Inst) ∈ s'.tmpl.instances := by
    rw [hs]; exact Dict.find_some_mem (Dict.find_insert_self _ _ _)
  have hstop : ∀ (d : Dict (Option Inst)) (l : List Ev) (n : Str), (n, none) ∈ d → stopAll d l = none := by
    intro d
    induction d with
    | nil => intro l n hn; cases hn
    | cons x d ih =>
      intro l n hn
      obtain ⟨m, v⟩ := x
      cases v with
      | none => rfl
      | some i =>
        rw [stopAll]
        rcases List.mem_cons.1 hn with e | hn
        · cases e
        · exact ih _ _ hn
  unfold unload
  simp [hstop _ log _ hnull]

/-! ### The hypotheses are met -/

/-- A library whose creation function throws. -/
def failingMaker : Str → Made := fun _ => .throws .operationFailed

example : (match instantiate false (some 0) ⟨⟨bs "A", some failingMaker, []⟩, freshWorld, []⟩ with
      | .throw e _ => decide (e = .operationFailed) | _ => false) = true ∧
    (match instantiate true (some 0) ⟨⟨bs "A", some failingMaker, []⟩, freshWorld, []⟩ with
      | .throw e _ => decide (e = .operationFailed) | _ => false) = true ∧
    SmallestFree (⟨bs "A", some failingMaker, []⟩ : Template) 0 ∧
    (freshWorld.bus 0).children.find (bs "A" ++ natToStr 0) = none ∧ (freshWorld.bus 0).attached = true :=
  ⟨by decide +kernel, by decide +kernel, ⟨by omega, rfl, fun j hj => by omega⟩, rfl, rfl⟩

/-! ## C59 -/

/-- The events of unloading instances with the given names without a failure: every `Stop`, then every `Deinitialize`. -/
def unloadEvents (names : List Str) : List Ev := names.map .stopped ++ names.map .deinitialized

theorem stopAll_eq : ∀ (d : Dict (Option Inst)) (log : List Ev), (∀ e ∈ d, e.2 ≠ none) →
    stopAll d log = some (log ++ d.keys.map .stopped) := by
  intro d
  induction d with
  | nil => intro log _; simp [stopAll, Dict.keys]
  | cons x d ih =>
    intro log h
    obtain ⟨n, v⟩ := x
    cases v with
    | none => exact absurd rfl (h _ (List.mem_cons_self ..))
    | some i =>
      rw [stopAll, ih _ (fun e he => h e (List.mem_cons_of_mem _ he))]
      simp [Dict.keys]

theorem deinitAll_eq : ∀ (d : Dict (Option Inst)) (log : List Ev), (∀ e ∈ d, ∃ i, e.2 = some i ∧ i.deinitExn = none) →
    deinitAll d log = some (log ++ d.keys.map .deinitialized, none) := by
  intro d
  induction d with
  | nil => intro log _; simp [deinitAll, Dict.keys]
  | cons x d ih =>
    intro log h
    obtain ⟨n, v⟩ := x
    obtain ⟨i, hi, hd⟩ := h _ (List.mem_cons_self ..)
    simp at hi
    subst hi
    rw [deinitAll, hd]
    simp only
    rw [ih _ (fun e he => h e (List.mem_cons_of_mem _ he))]
    simp [Dict.keys]

theorem deinitAll_throw : ∀ (d1 : Dict (Option Inst)) (n : Str) (i : Inst) (d2 : Dict (Option Inst)) (log : List Ev) (x : Exn),
    (∀ e ∈ d1, ∃ i, e.2 = some i ∧ i.deinitExn = none) → i.deinitExn = some x →
    deinitAll (d1 ++ (n, some i) :: d2) log = some (log ++ (d1.keys ++ [n]).map .deinitialized, some x) := by
  intro d1
  induction d1 with
  | nil => intro n i d2 log x _ hx; simp [deinitAll, hx, Dict.keys]
  | cons y d ih =>
    intro n i d2 log x h hx
    obtain ⟨m, v⟩ := y
    obtain ⟨j, hj, hd⟩ := h _ (List.mem_cons_self ..)
    simp at hj
    subst hj
    rw [List.cons_append, deinitAll, hd]
    simp only
    rw [ih _ _ _ _ _ (fun e he => h e (List.mem_cons_of_mem _ he)) hx]
    simp [Dict.keys]

/-- Unloading a template whose instances exist and whose `Deinitialize` functions return: every instance is stopped,
then every instance is deinitialised, each once and in name order; no instance is left and no more can be made. -/
theorem C59_unload {t : Template} (hs : t.instances.Sorted)
    (h : ∀ e ∈ t.instances, ∃ i, e.2 = some i ∧ i.deinitExn = none) (log : List Ev) :
    ∃ names : List Str, names.Pairwise (fun a b => Str.lt a b = true) ∧
      (∀ n, n ∈ names ↔ ∃ v, t.instances.find n = some v) ∧
      unload t log = .ok () (⟨t.ident, none, []⟩, log ++ unloadEvents names) := by
  refine ⟨t.instances.keys, ?_, ?_, ?_⟩
  · exact List.pairwise_map.2 hs
  · intro n
    constructor
    · intro hn
      obtain ⟨e, he, rfl⟩ := List.mem_map.1 hn
      exact ⟨e.2, Dict.mem_find hs he⟩
    · rintro ⟨v, hv⟩
      exact List.mem_map.2 ⟨_, Dict.find_some_mem hv, rfl⟩
  · unfold unload unloadEvents
    simp only
    rw [stopAll_eq _ _ (fun e he => by obtain ⟨i, hi, _⟩ := h e he; simp [hi])]
    simp only
    rw [deinitAll_eq _ _ h]
    simp

/-- Unloading again, or destroying the template, does nothing more. -/
theorem C59_second_unload {t t' : Template} {log log' : List Ev} (h : unload t log = .ok () (t', log')) (l : List Ev) :
    unload t' l = .ok () (t', l) ∧ destroyTemplate t' l = .ok () l := by
  have ht : t' = ⟨t.ident, none, []⟩ := by
    unfold unload at h
    simp only at h
    split at h
    · cases h
    · split at h
      · cases h
      · cases h
      · cases h; rfl
  subst ht
  have hu : unload ⟨t.ident, none, []⟩ l = .ok () (⟨t.ident, none, []⟩, l) := by simp [unload, stopAll, deinitAll]
  exact ⟨hu, by simp [destroyTemplate, hu]⟩

/-- If an instance's `Deinitialize` throws, the exception leaves `Unload` with every instance still registered, the
instances after it are not deinitialised, and destroying the template terminates the process (after stopping and
deinitialising the earlier ones a second time). -/
theorem C59_throwing_deinitialize {t : Template} {d1 d2 : Dict (Option Inst)} {n : Str} {i : Inst} {x : Exn}
    (ht : t.instances = d1 ++ (n, some i) :: d2) (h1 : ∀ e ∈ d1, ∃ i, e.2 = some i ∧ i.deinitExn = none)
    (hx : i.deinitExn = some x) (h2 : ∀ e ∈ d2, e.2 ≠ none) (log : List Ev) :
    unload t log = .throw x (⟨t.ident, none, t.instances⟩,
        log ++ (t.instances.keys.map .stopped ++ (d1.keys ++ [n]).map .deinitialized)) ∧
      ∀ l, destroyTemplate ⟨t.ident, none, t.instances⟩ l = .terminate := by
  have hne : ∀ e ∈ t.instances, e.2 ≠ none := by
    intro e he
    rw [ht] at he
    rcases List.mem_append.1 he with he | he
    · obtain ⟨j, hj, _⟩ := h1 e he; simp [hj]
    · rcases List.mem_cons.1 he with rfl | he
      · simp
      · exact h2 e he
  have key : ∀ l, unload t l = .throw x (⟨t.ident, none, t.instances⟩,
        l ++ (t.instances.keys.map .stopped ++ (d1.keys ++ [n]).map .deinitialized)) := by
    intro l
    unfold unload
    simp only
    rw [stopAll_eq _ _ hne]
    simp only
    rw [ht, deinitAll_throw _ _ _ _ _ _ h1 hx]
    simp
  refine ⟨key log, fun l => ?_⟩
  have : unload ⟨t.ident, none, t.instances⟩ l = unload t l := rfl
  unfold destroyTemplate
  rw [this, key l]

/-- The instances of every history are in name order and (if the library never returns null pointers and creations do not
fail, or the call is evaluated first) all exist, as `C59_unload` requires. -/
theorem C59_histories_qualify {ident : Str} {f : Str → Made} {s : TS} {names : List Str}
    (hf : ∀ n, ∃ i, f n = .object i ∧ i.deinitExn = none) (early : Bool) (h : History early ident f s names) :
    s.tmpl.instances.Sorted ∧ ∀ e ∈ s.tmpl.instances, ∃ i, e.2 = some i ∧ i.deinitExn = none := by
  induction h with
  | new => exact ⟨Dict.sorted_nil, by simp⟩
  | @done s s' names p n i h hi ih =>
    obtain ⟨k, _, _, _, hn, ht⟩ := instantiate_tmpl hi
    rw [ht]
    refine ⟨Dict.insert_sorted ih.1, fun e he => ?_⟩
    rcases Dict.mem_insert he with rfl | he
    · rcases instantiate_made hi h.ident.2 with ⟨n, hn⟩ | ⟨n, j, hj, hr⟩
      · obtain ⟨j, hj, _⟩ := hf n
        rw [hj] at hn; cases hn
      · obtain ⟨j', hj', hd⟩ := hf n
        rw [hj] at hj'
        cases hj'
        exact ⟨j, hr, hd⟩
    · exact ih.2 e he
  | @failed s s' names p e h hi ih =>
    rcases instantiate_throw hi with ht | ⟨_, hm, _⟩
    · rw [ht]; exact ih
    · exfalso
      rcases hm with hm | ⟨g, hm, n, x, hx⟩
      · rw [h.ident.2] at hm; cases hm
      · rw [h.ident.2] at hm; cases hm
        obtain ⟨j, hj, _⟩ := hf n
        rw [hj] at hx; cases hx
  | other _ _ _ ih => exact ih

/-! ### The hypotheses are met -/

example : ∀ n, ∃ i, goodMaker n = .object i ∧ i.deinitExn = none := fun _ => ⟨_, rfl, rfl⟩

example : unload ⟨bs "A", some goodMaker, [(bs "A0", some ⟨none, none⟩), (bs "A1", some ⟨none, none⟩)]⟩ [] =
    .ok () (⟨bs "A", none, []⟩, [.stopped (bs "A0"), .stopped (bs "A1"), .deinitialized (bs "A0"), .deinitialized (bs "A1")]) :=
  rfl

example : ∃ (d1 d2 : Dict (Option Inst)) (n : Str) (i : Inst) (x : Exn),
    ([(bs "A0", some ⟨none, none⟩), (bs "A1", some ⟨none, some .operationFailed⟩), (bs "A2", some ⟨none, none⟩)] :
      Dict (Option Inst)) = d1 ++ (n, some i) :: d2 ∧ (∀ e ∈ d1, ∃ i, e.2 = some i ∧ i.deinitExn = none) ∧
    i.deinitExn = some x ∧ ∀ e ∈ d2, e.2 ≠ none :=
  ⟨[(bs "A0", some ⟨none, none⟩)], [(bs "A2", some ⟨none, none⟩)], bs "A1", ⟨none, some .operationFailed⟩, .operationFailed,
    rfl, by simp, rfl, by simp⟩

end LP.Plugin
