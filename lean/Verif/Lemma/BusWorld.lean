import Verif.Spec.Bus
import Verif.Lemma.Dict
/-!
# Shape of the bus hierarchy
-/
namespace LP.Bus

/-- Invariant of the objects of a hierarchy. -/
structure WOk (w : World) : Prop where
  root : 0 < w.nb
  sorted : ∀ b, (w.bus b).children.Sorted
  child : ∀ b c, c ∈ (w.bus b).children.vals → b < c ∧ c < w.nb
  nodup : ∀ b, (w.bus b).children.vals.Nodup
  parent : ∀ b b' c, c ∈ (w.bus b).children.vals → c ∈ (w.bus b').children.vals → b = b'
  named : ∀ b k c, (k, c) ∈ (w.bus b).children → (w.bus c).name = k
  subsNodup : ∀ b, (w.bus b).subs.Nodup
  subsHome : ∀ b s, s ∈ (w.bus b).subs → s < w.ns ∧ (w.sub s).home = b
  home : ∀ s, s < w.ns → (w.sub s).home < w.nb

theorem mem_vals {w : World} (hw : WOk w) {b c : Nat} : c ∈ (w.bus b).children.vals ↔ Child w b c := by
  constructor
  · intro h
    obtain ⟨⟨k, c'⟩, hk, rfl⟩ := List.mem_map.1 h
    exact ⟨k, Dict.mem_find (hw.sorted b) hk⟩
  · rintro ⟨k, h⟩
    exact List.mem_map.2 ⟨_, Dict.find_some_mem h, rfl⟩

theorem Child.lt {w : World} (hw : WOk w) {b c : Nat} (h : Child w b c) : b < c ∧ c < w.nb :=
  hw.child b c ((mem_vals hw).2 h)

theorem Anc.le {w : World} (hw : WOk w) {a b : Nat} (h : Anc w a b) : a ≤ b := by
  induction h with
  | refl => exact Nat.le_refl _
  | step _ hc ih => have := (hc.lt hw).1; omega

theorem Anc.lt_nb {w : World} (hw : WOk w) {a b : Nat} (h : Anc w a b) (hb : a < w.nb) : b < w.nb := by
  cases h with
  | refl => exact hb
  | step _ hc => exact (hc.lt hw).2

theorem Anc.head {w : World} {a c b : Nat} (hc : Child w a c) (h : Anc w c b) : Anc w a b := by
  induction h with
  | refl => exact .step (.refl _) hc
  | step _ hd ih => exact .step ih hd

/-- The first step down. -/
theorem Anc.split {w : World} {a b : Nat} (h : Anc w a b) : a = b ∨ ∃ c, Child w a c ∧ Anc w c b := by
  induction h with
  | refl => exact .inl rfl
  | @step b c h hc ih =>
    rcases ih with rfl | ⟨d, hd, hdb⟩
    · exact .inr ⟨_, hc, .refl _⟩
    · exact .inr ⟨d, hd, .step hdb hc⟩

theorem Child.parent_unique {w : World} (hw : WOk w) {b b' c : Nat} (h : Child w b c) (h' : Child w b' c) : b = b' :=
  hw.parent b b' c ((mem_vals hw).2 h) ((mem_vals hw).2 h')

theorem Anc.branch_unique {w : World} (hw : WOk w) {a c c' b : Nat} (hc : Child w a c) (hc' : Child w a c')
    (h : Anc w c b) (h' : Anc w c' b) : c = c' := by
  induction h with
  | refl =>
    cases h' with
    | refl => rfl
    | step h1 h2 =>
      have := h2.parent_unique hw hc; subst this
      have := h1.le hw; have := (hc'.lt hw).1; omega
  | step h1 h2 ih =>
    cases h' with
    | refl =>
      have := h2.parent_unique hw hc'; subst this
      have := h1.le hw; have := (hc.lt hw).1; omega
    | step h3 h4 =>
      have := h2.parent_unique hw h4; subst this
      exact ih h3

open Classical in
/-- 1 if the proposition holds, else 0. -/
noncomputable def ind (p : Prop) : Nat := if p then 1 else 0

theorem ind_pos {p : Prop} (h : p) : ind p = 1 := by unfold ind; rw [if_pos h]
theorem ind_neg {p : Prop} (h : ¬p) : ind p = 0 := by unfold ind; rw [if_neg h]
theorem ind_le (p : Prop) : ind p ≤ 1 := by unfold ind; split <;> omega
theorem ind_congr {p q : Prop} (h : p ↔ q) : ind p = ind q := by rw [propext h]

/-- How many of the buses lie above `b`. -/
noncomputable def cnt (w : World) (b : Nat) : List Nat → Nat
  | [] => 0
  | c :: cs => ind (Anc w c b) + cnt w b cs

theorem cnt_zero {w : World} {b : Nat} {cs : List Nat} (h : ∀ c ∈ cs, ¬Anc w c b) : cnt w b cs = 0 := by
  induction cs with
  | nil => rfl
  | cons c cs ih =>
    rw [cnt, ind_neg (h c (by simp)), ih (fun d hd => h d (by simp [hd]))]

theorem cnt_one {w : World} {b c : Nat} {cs : List Nat} (hn : cs.Nodup) (hc : c ∈ cs) (ha : Anc w c b)
    (hu : ∀ d ∈ cs, Anc w d b → d = c) : cnt w b cs = 1 := by
  induction cs with
  | nil => cases hc
  | cons d cs ih =>
    rw [List.nodup_cons] at hn
    rw [cnt]
    rcases List.mem_cons.1 hc with rfl | hc'
    · rw [ind_pos ha, cnt_zero]
      intro d hd h
      exact hn.1 (hu d (by simp [hd]) h ▸ hd)
    · have : d ≠ c := fun h => hn.1 (h ▸ hc')
      rw [ind_neg (fun h => this (hu d (by simp) h)), ih hn.2 hc' (fun e he => hu e (by simp [he]))]

/-- A bus lies below `a` exactly if it is `a` or lies below exactly one of the children. -/
theorem cnt_children {w : World} (hw : WOk w) (a b : Nat) :
    ind (Anc w a b) = ind (a = b) + cnt w b (w.bus a).children.vals := by
  by_cases hab : a = b
  · subst hab
    rw [ind_pos (.refl _), ind_pos rfl, cnt_zero]
    intro c hc h
    have := h.le hw; have := (hw.child _ _ hc).1; omega
  · rw [ind_neg hab, Nat.zero_add]
    by_cases h : Anc w a b
    · rw [ind_pos h]
      rcases h.split with h1 | ⟨c, hc, hcb⟩
      · exact absurd h1 hab
      · rw [cnt_one (hw.nodup a) ((mem_vals hw).2 hc) hcb]
        intro d hd hdb
        exact Anc.branch_unique hw ((mem_vals hw).1 hd) hc hdb hcb
    · rw [ind_neg h, cnt_zero]
      intro c hc hcb
      exact h (Anc.head ((mem_vals hw).1 hc) hcb)

/-- The hierarchy changed at most by new leaves. -/
def Grows (w w' : World) : Prop :=
  w.nb ≤ w'.nb ∧ w.ns ≤ w'.ns ∧ (∀ a b, b < w.nb → (Anc w' a b ↔ Anc w a b)) ∧
  (∀ s, s < w.ns → (w'.sub s).home = (w.sub s).home ∧ (w'.sub s).topic = (w.sub s).topic)

theorem Grows.refl (w : World) : Grows w w :=
  ⟨Nat.le_refl _, Nat.le_refl _, fun _ _ _ => Iff.rfl, fun _ _ => ⟨rfl, rfl⟩⟩

theorem Grows.trans {w w' w'' : World} (h : Grows w w') (h' : Grows w' w'') : Grows w w'' := by
  refine ⟨Nat.le_trans h.1 h'.1, Nat.le_trans h.2.1 h'.2.1, ?_, ?_⟩
  · intro a b hb
    rw [h'.2.2.1 a b (Nat.lt_of_lt_of_le hb h.1), h.2.2.1 a b hb]
  · intro s hs
    have h1 := h.2.2.2 s hs
    have h2 := h'.2.2.2 s (Nat.lt_of_lt_of_le hs h.2.1)
    exact ⟨h2.1.trans h1.1, h2.2.trans h1.2⟩

theorem Grows.cnt {w w' : World} (h : Grows w w') {b : Nat} (hb : b < w.nb) (cs : List Nat) :
    cnt w' b cs = cnt w b cs := by
  induction cs with
  | nil => rfl
  | cons c cs ih => rw [Bus.cnt, Bus.cnt, ih, ind_congr (h.2.2.1 c b hb)]

theorem anc_congr {w w' : World} (h : ∀ b c, Child w' b c ↔ Child w b c) (a b : Nat) : Anc w' a b ↔ Anc w a b := by
  constructor
  · intro h'
    induction h' with
    | refl => exact .refl _
    | step _ hc ih => exact .step ih ((h _ _).1 hc)
  · intro h'
    induction h' with
    | refl => exact .refl _
    | step _ hc ih => exact .step ih ((h _ _).2 hc)

theorem grows_of_children {w w' : World} (hnb : w'.nb = w.nb) (hns : w.ns ≤ w'.ns)
    (hc : ∀ b, (w'.bus b).children = (w.bus b).children)
    (hs : ∀ s, s < w.ns → (w'.sub s).home = (w.sub s).home ∧ (w'.sub s).topic = (w.sub s).topic) : Grows w w' := by
  refine ⟨Nat.le_of_eq hnb.symm, hns, fun a b _ => anc_congr (fun b c => ?_) a b, hs⟩
  unfold Child; rw [hc]

/-- Writing one bus without touching the parts the shape depends on. -/
theorem setBus_ok {w : World} (hw : WOk w) {b : Nat} {x : BusSt} (hn : x.name = (w.bus b).name)
    (hc : x.children = (w.bus b).children) (hs : x.subs.Sublist (w.bus b).subs) :
    WOk (w.setBus b x) ∧ Grows w (w.setBus b x) := by
  have hch : ∀ i, ((w.setBus b x).bus i).children = (w.bus i).children := by
    intro i; simp only [World.setBus]; split
    · subst_vars; exact hc
    · rfl
  have hnm : ∀ i, ((w.setBus b x).bus i).name = (w.bus i).name := by
    intro i; simp only [World.setBus]; split
    · subst_vars; exact hn
    · rfl
  have hsb : ∀ i, ((w.setBus b x).bus i).subs.Sublist (w.bus i).subs := by
    intro i; simp only [World.setBus]; split
    · subst_vars; exact hs
    · exact List.Sublist.refl _
  refine ⟨⟨hw.root, ?_, ?_, ?_, ?_, ?_, ?_, ?_, hw.home⟩, ?_⟩
  · intro i; rw [hch]; exact hw.sorted i
  · intro i c h; rw [hch] at h; exact hw.child i c h
  · intro i; rw [hch]; exact hw.nodup i
  · intro i j c h h'; rw [hch] at h h'; exact hw.parent i j c h h'
  · intro i k c h; rw [hch] at h; rw [hnm]; exact hw.named i k c h
  · intro i; exact (hsb i).nodup (hw.subsNodup i)
  · intro i s h; exact hw.subsHome i s ((hsb i).subset h)
  · exact grows_of_children rfl (Nat.le_refl _) hch (fun s _ => ⟨rfl, rfl⟩)

theorem setSub_ok {w : World} (hw : WOk w) {s : Nat} {x : SubSt} (hh : x.home = (w.sub s).home)
    (ht : x.topic = (w.sub s).topic) : WOk (w.setSub s x) ∧ Grows w (w.setSub s x) := by
  have hm : ∀ i, ((w.setSub s x).sub i).home = (w.sub i).home := by
    intro i; simp only [World.setSub]; split
    · subst_vars; exact hh
    · rfl
  have htt : ∀ i, ((w.setSub s x).sub i).topic = (w.sub i).topic := by
    intro i; simp only [World.setSub]; split
    · subst_vars; exact ht
    · rfl
  refine ⟨⟨hw.root, hw.sorted, hw.child, hw.nodup, hw.parent, hw.named, hw.subsNodup, ?_, ?_⟩, ?_⟩
  · intro b i h
    rw [hm]
    exact hw.subsHome b i h
  · intro i h; rw [hm]; exact hw.home i h
  · exact grows_of_children rfl (Nat.le_refl _) (fun _ => rfl) (fun i _ => ⟨hm i, htt i⟩)

theorem stop_ok {w : World} (hw : WOk w) (b : Nat) : WOk (stop b w) ∧ Grows w (stop b w) :=
  setBus_ok hw rfl rfl (List.Sublist.refl _)
theorem setRunning_ok {w : World} (hw : WOk w) (b : Nat) : WOk (setRunning b w) ∧ Grows w (setRunning b w) :=
  setBus_ok hw rfl rfl (List.Sublist.refl _)
theorem detachOne_ok {w : World} (hw : WOk w) (b : Nat) : WOk (detachOne b w) ∧ Grows w (detachOne b w) :=
  setBus_ok hw rfl rfl (List.Sublist.refl _)
theorem setCallback_ok {w : World} (hw : WOk w) (s : Nat) (cb : Option Nat) :
    WOk (setCallback s cb w) ∧ Grows w (setCallback s cb w) := setSub_ok hw rfl rfl

theorem deleteSubscriber_ok {w : World} (hw : WOk w) (b s : Nat) :
    WOk (outcome w (deleteSubscriber b (some s) w)) ∧ Grows w (outcome w (deleteSubscriber b (some s) w)) := by
  have h1 := setBus_ok hw (b := b) (x := { w.bus b with subs := (w.bus b).subs.filter (fun i => i != s) })
    rfl rfl (List.filter_sublist)
  have h2 := setSub_ok h1.1 (s := s) (x := { w.sub s with cb := none }) rfl rfl
  exact ⟨h2.1, h1.2.trans h2.2⟩

theorem pubs_ok {w : World} (hw : WOk w) (np : Nat) (pub : Nat → PubSt) (q : List BMsg) :
    WOk { w with np := np, pub := pub, queue := q } ∧ Grows w { w with np := np, pub := pub, queue := q } :=
  ⟨⟨hw.root, hw.sorted, hw.child, hw.nodup, hw.parent, hw.named, hw.subsNodup, hw.subsHome, hw.home⟩,
    grows_of_children rfl (Nat.le_refl _) (fun _ => rfl) (fun _ _ => ⟨rfl, rfl⟩)⟩

theorem createPublisher_ok {w : World} (hw : WOk w) (b : Nat) (t : Str) :
    WOk (outcome w (createPublisher b t w)) ∧ Grows w (outcome w (createPublisher b t w)) := by
  have h1 := pubs_ok hw (w.np + 1) (fun i => if i = w.np then ⟨t, b, true⟩ else w.pub i) w.queue
  have h2 := setBus_ok h1.1 (b := b) (x := { w.bus b with pubs := (w.bus b).pubs ++ [w.np] }) rfl rfl
    (List.Sublist.refl _)
  exact ⟨h2.1, h1.2.trans h2.2⟩

theorem deletePublisher_ok {w : World} (hw : WOk w) (b p : Nat) :
    WOk (outcome w (deletePublisher b (some p) w)) ∧ Grows w (outcome w (deletePublisher b (some p) w)) := by
  have h1 := setBus_ok hw (b := b) (x := { w.bus b with pubs := (w.bus b).pubs.filter (fun i => i != p) }) rfl rfl
    (List.Sublist.refl _)
  have h2 := pubs_ok h1.1 w.np (fun i => if i = p then { w.pub p with active := false } else w.pub i) w.queue
  exact ⟨h2.1, h1.2.trans h2.2⟩

theorem createSubscriber_ok {w : World} (hw : WOk w) (b : Nat) (hb : b < w.nb) (t : Str) (cb : Option Nat) :
    WOk (outcome w (createSubscriber b t cb w)) ∧ Grows w (outcome w (createSubscriber b t cb w)) := by
  simp only [createSubscriber, outcome]
  have hfresh : ∀ i, w.ns ∉ (w.bus i).subs := fun i h => Nat.lt_irrefl _ (hw.subsHome i _ h).1
  have hch : ∀ i, ((({ w with ns := w.ns + 1 } : World).setSub w.ns ⟨t, cb, b⟩).setBus b
      { w.bus b with subs := (w.bus b).subs ++ [w.ns] } |>.bus i).children = (w.bus i).children := by
    intro i; simp only [World.setBus, World.setSub]; split
    · subst_vars; rfl
    · rfl
  have hnm : ∀ i, ((({ w with ns := w.ns + 1 } : World).setSub w.ns ⟨t, cb, b⟩).setBus b
      { w.bus b with subs := (w.bus b).subs ++ [w.ns] } |>.bus i).name = (w.bus i).name := by
    intro i; simp only [World.setBus, World.setSub]; split
    · subst_vars; rfl
    · rfl
  refine ⟨⟨hw.root, ?_, ?_, ?_, ?_, ?_, ?_, ?_, ?_⟩, ?_⟩
  · intro i; rw [hch]; exact hw.sorted i
  · intro i c h; rw [hch] at h; exact hw.child i c h
  · intro i; rw [hch]; exact hw.nodup i
  · intro i j c h h'; rw [hch] at h h'; exact hw.parent i j c h h'
  · intro i k c h; rw [hch] at h; rw [hnm]; exact hw.named i k c h
  · intro i
    simp only [World.setBus, World.setSub]
    split
    · rw [List.nodup_append]
      refine ⟨hw.subsNodup b, by simp, ?_⟩
      intro x hx y hy he
      simp only [List.mem_singleton] at hy
      exact hfresh b (by rw [← hy, ← he]; exact hx)
    · exact hw.subsNodup i
  · intro i s h
    simp only [World.setBus, World.setSub] at h ⊢
    split at h
    · rename_i hi
      simp only [List.mem_append, List.mem_singleton] at h
      rcases h with h | h
      · have := hw.subsHome b s h
        have hne : s ≠ w.ns := fun e => hfresh b (e ▸ h)
        simp only [hne, if_false, hi]
        exact ⟨by omega, this.2⟩
      · subst h; simp [hi]
    · have := hw.subsHome i s h
      have hne : s ≠ w.ns := fun e => hfresh i (e ▸ h)
      simp only [hne, if_false]
      exact ⟨by omega, this.2⟩
  · intro s h
    simp only [World.setBus, World.setSub] at h ⊢
    split
    · exact hb
    · exact hw.home s (by omega)
  · refine grows_of_children rfl (Nat.le_succ _) hch ?_
    intro s hs
    simp only [World.setBus, World.setSub, Nat.ne_of_lt hs, if_false, and_self]

/-- What a successful `CreateChildBus` did. -/
theorem createChildBus_cases (w : World) (b : Nat) (name : Str) :
    outcome w (createChildBus b name w) = w ∨
    (name ≠ [] ∧ (w.bus b).children.find name = none ∧ (w.bus b).attached = true ∧
      createChildBus b name w = .ok w.nb ((({ w with nb := w.nb + 1 } : World).setBus w.nb ⟨name, [], [], [], true, true⟩).setBus b
        { w.bus b with children := (w.bus b).children.insert name w.nb })) := by
  unfold createChildBus
  split
  · exact .inl rfl
  · rename_i hn
    cases hf : (w.bus b).children.find name with
    | some c => exact .inl rfl
    | none =>
      by_cases ha : (w.bus b).attached = false
      · simp only [ha, if_true]; exact .inl rfl
      · have ha' : (w.bus b).attached = true := by simpa using ha
        exact .inr ⟨hn, rfl, ha', by simp [ha']⟩

theorem insert_perm {V : Type} {k : Str} {v : V} {d : Dict V} (h : d.find k = none) :
    (d.insert k v).Perm ((k, v) :: d) := by
  induction d with
  | nil => exact List.Perm.refl _
  | cons e d ih =>
    obtain ⟨k', v'⟩ := e
    rw [Dict.find] at h
    split at h
    · exact absurd h (by simp)
    · rename_i hne
      rw [Dict.insert, if_neg (fun e => hne e.symm)]
      split
      · exact List.Perm.refl _
      · exact ((ih h).cons _).trans (List.Perm.swap _ _ _)

theorem createChildBus_ok {w : World} (hw : WOk w) (b : Nat) (hb : b < w.nb) (name : Str) :
    WOk (outcome w (createChildBus b name w)) ∧ Grows w (outcome w (createChildBus b name w)) ∧
    (∀ a, w.nb < (outcome w (createChildBus b name w)).nb →
      (Anc (outcome w (createChildBus b name w)) a w.nb ↔ a = w.nb ∨ Anc w a b)) := by
  rcases createChildBus_cases w b name with h | ⟨hn, hf, ha, h⟩
  · rw [h]; exact ⟨hw, .refl _, fun a h => absurd h (Nat.lt_irrefl _)⟩
  · rw [h]
    simp only [outcome]
    generalize hW : (({ w with nb := w.nb + 1 } : World).setBus w.nb ⟨name, [], [], [], true, true⟩).setBus b
        { w.bus b with children := (w.bus b).children.insert name w.nb } = W
    have hne : b ≠ w.nb := Nat.ne_of_lt hb
    have hBb : W.bus b = { w.bus b with children := (w.bus b).children.insert name w.nb } := by
      subst hW; simp [World.setBus]
    have hBn : W.bus w.nb = ⟨name, [], [], [], true, true⟩ := by
      subst hW; simp [World.setBus, hne.symm]
    have hBo : ∀ i, i ≠ b → i ≠ w.nb → W.bus i = w.bus i := by
      intro i h1 h2; subst hW; simp [World.setBus, h1, h2]
    have hnb : W.nb = w.nb + 1 := by subst hW; rfl
    have hns : W.ns = w.ns := by subst hW; rfl
    have hsub : W.sub = w.sub := by subst hW; rfl
    have hperm : (W.bus b).children.vals.Perm (w.nb :: (w.bus b).children.vals) := by
      rw [hBb]
      exact (insert_perm hf).map Prod.snd
    have hfr : ∀ i, w.nb ∉ (w.bus i).children.vals := fun i h => Nat.lt_irrefl _ (hw.child i _ h).2
    -- membership of children
    have hmem : ∀ i c, c ∈ (W.bus i).children.vals ↔
        (i = b ∧ c = w.nb) ∨ (i ≠ w.nb ∧ c ∈ (w.bus i).children.vals) := by
      intro i c
      by_cases h1 : i = b
      · subst h1
        rw [hperm.mem_iff]
        simp [hne]
      · by_cases h2 : i = w.nb
        · subst h2
          rw [hBn]; simp [Dict.vals, h1]
        · rw [hBo i h1 h2]; simp [h1, h2]
    have hsorted : ∀ i, (W.bus i).children.Sorted := by
      intro i
      by_cases h1 : i = b
      · subst h1; rw [hBb]; exact Dict.insert_sorted (hw.sorted i)
      · by_cases h2 : i = w.nb
        · subst h2; rw [hBn]; exact Dict.sorted_nil
        · rw [hBo i h1 h2]; exact hw.sorted i
    have hempty : (w.bus w.nb).children.vals = [] := by
      apply List.eq_nil_iff_forall_not_mem.2
      intro c hc
      have := hw.child _ _ hc; omega
    have hWok : WOk W := by
      refine ⟨by omega, hsorted, ?_, ?_, ?_, ?_, ?_, ?_, ?_⟩
      · intro i c hc
        rw [hmem] at hc
        rcases hc with ⟨rfl, rfl⟩ | ⟨_, hc⟩
        · omega
        · have := hw.child i c hc; omega
      · intro i
        by_cases h1 : i = b
        · subst h1
          rw [hperm.nodup_iff, List.nodup_cons]
          exact ⟨hfr i, hw.nodup i⟩
        · by_cases h2 : i = w.nb
          · subst h2; rw [hBn]; simp [Dict.vals]
          · rw [hBo i h1 h2]; exact hw.nodup i
      · intro i j c hi hj
        rw [hmem] at hi hj
        rcases hi with ⟨rfl, rfl⟩ | ⟨_, hi⟩
        · rcases hj with ⟨rfl, _⟩ | ⟨_, hj⟩
          · rfl
          · exact absurd hj (hfr j)
        · rcases hj with ⟨rfl, rfl⟩ | ⟨_, hj⟩
          · exact absurd hi (hfr i)
          · exact hw.parent i j c hi hj
      · intro i k c hi
        have hcm : c ∈ (W.bus i).children.vals := List.mem_map.2 ⟨_, hi, rfl⟩
        by_cases h1 : i = b
        · subst h1
          rw [hBb] at hi
          rcases Dict.mem_insert hi with h | h
          · cases h; rw [hBn]
          · have hc : c ∈ (w.bus i).children.vals := List.mem_map.2 ⟨_, h, rfl⟩
            have := hw.child _ _ hc
            rw [hBo c (by omega) (by omega)]
            exact hw.named _ _ _ h
        · by_cases h2 : i = w.nb
          · subst h2; rw [hBn] at hi; cases hi
          · rw [hBo i h1 h2] at hi
            have hc : c ∈ (w.bus i).children.vals := List.mem_map.2 ⟨_, hi, rfl⟩
            have hcn : c ≠ w.nb := fun e => hfr i (e ▸ hc)
            have hnm := hw.named _ _ _ hi
            by_cases hcb : c = b
            · rw [hcb, hBb]; rw [hcb] at hnm; exact hnm
            · rw [hBo c hcb hcn]; exact hnm
      · intro i
        by_cases h1 : i = b
        · subst h1; rw [hBb]; exact hw.subsNodup i
        · by_cases h2 : i = w.nb
          · subst h2; rw [hBn]; simp
          · rw [hBo i h1 h2]; exact hw.subsNodup i
      · intro i s hs
        rw [hns, hsub]
        by_cases h1 : i = b
        · subst h1; rw [hBb] at hs; exact hw.subsHome _ _ hs
        · by_cases h2 : i = w.nb
          · subst h2; rw [hBn] at hs; cases hs
          · rw [hBo i h1 h2] at hs; exact hw.subsHome _ _ hs
      · intro s hs
        rw [hns] at hs; rw [hsub, hnb]
        have := hw.home s hs; omega
    have hchild : ∀ i c, Child W i c ↔ (i = b ∧ c = w.nb) ∨ Child w i c := by
      intro i c
      rw [← mem_vals hWok, hmem, ← mem_vals hw]
      constructor
      · rintro (h | ⟨_, h⟩)
        · exact .inl h
        · exact .inr h
      · rintro (h | h)
        · exact .inl h
        · refine .inr ⟨?_, h⟩
          rintro rfl
          rw [hempty] at h; cases h
    have hanc : ∀ a c, c < w.nb → (Anc W a c ↔ Anc w a c) := by
      intro a c hc
      constructor
      · intro h
        induction h with
        | refl => exact .refl _
        | @step p q _ hpq ih =>
          rcases (hchild _ _).1 hpq with ⟨_, rfl⟩ | h'
          · exact absurd hc (Nat.lt_irrefl _)
          · exact .step (ih (by have := h'.lt hw; omega)) h'
      · intro h
        clear hc
        induction h with
        | refl => exact .refl _
        | step _ hpq ih => exact .step ih ((hchild _ _).2 (.inr hpq))
    refine ⟨hWok, ⟨by omega, by omega, hanc, ?_⟩, ?_⟩
    · intro s _; rw [hsub]; exact ⟨rfl, rfl⟩
    · intro a _
      constructor
      · intro h
        generalize hq : w.nb = q at h
        cases h with
        | refl => exact .inl rfl
        | @step p _ h1 hpq =>
          rcases (hchild _ _).1 hpq with ⟨rfl, _⟩ | h'
          · exact .inr ((hanc _ _ hb).1 h1)
          · have := h'.lt hw; omega
      · rintro (rfl | h)
        · exact .refl _
        · exact .step ((hanc _ _ hb).2 h) ((hchild _ _).2 (.inl ⟨rfl, rfl⟩))

theorem newRoot_ok {name : Str} {w : World} (h : newRoot name = .ok w) : WOk w := by
  unfold newRoot at h
  split at h
  · cases h
  · cases h
    have hc : ∀ i, (if i = 0 then (⟨name, [], [], [], false, true⟩ : BusSt) else noBus).children = [] := by
      intro i; split <;> rfl
    have hs : ∀ i, (if i = 0 then (⟨name, [], [], [], false, true⟩ : BusSt) else noBus).subs = [] := by
      intro i; split <;> rfl
    refine ⟨Nat.zero_lt_one, ?_, ?_, ?_, ?_, ?_, ?_, ?_, ?_⟩
    · intro b; simp only [hc]; exact Dict.sorted_nil
    · intro b c h; simp only [hc, Dict.vals] at h; cases h
    · intro b; simp [hc, Dict.vals]
    · intro b b' c h; simp only [hc, Dict.vals] at h; cases h
    · intro b k c h; simp only [hc] at h; cases h
    · intro b; simp [hs]
    · intro b s h; simp only [hs] at h; cases h
    · intro s h; exact absurd h (Nat.not_lt_zero _)

end LP.Bus
