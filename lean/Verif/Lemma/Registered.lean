import Verif.Lemma.BusHist
import Verif.Spec.Registered
/-!
# The lists of subscribers and publishers, told from the history
-/
namespace LP.Bus

theorem exec_snoc {σ : St} (as : List Act) (a : Act) : exec σ (as ++ [a]) = (exec σ as).bind (fun τ => step τ a) := by
  induction as generalizing σ with
  | nil => simp only [List.nil_append, exec, Option.bind_some]; cases step σ a <;> rfl
  | cons b as ih =>
    simp only [List.cons_append, exec]
    cases step σ b with
    | none => rfl
    | some τ => exact ih

theorem acts_rec {P : List Act → Prop} (h0 : P []) (h1 : ∀ h a, P h → P (h ++ [a])) (h : List Act) : P h := by
  have : ∀ l : List Act, P l.reverse := by
    intro l
    induction l with
    | nil => exact h0
    | cons a l ih => rw [List.reverse_cons]; exact h1 _ _ ih
  simpa using this h.reverse

/-- The lists of the buses, told from the history. -/
structure Listed (w : World) (as : List Act) : Prop where
  ns : w.ns = (subsMade as).length
  np : w.np = (pubsMade as).length
  sub : ∀ b s, s ∈ (w.bus b).subs ↔ (subsMade as)[s]? = some b ∧ .deleteSub b s ∉ as
  pub : ∀ b p, p ∈ (w.bus b).pubs ↔ (pubsMade as)[p]? = some b ∧ .deletePub b p ∉ as
  subLow : ∀ b s, .deleteSub b s ∈ as → s < w.ns
  pubLow : ∀ b p, .deletePub b p ∈ as → p < w.np
  home : (∀ b ∈ subsMade as, b < w.nb) ∧ ∀ b ∈ pubsMade as, b < w.nb

theorem Listed.quiet {w w' : World} {as : List Act} {a : Act} (h : Listed w as) (hs : subsMade [a] = []) (hp : pubsMade [a] = [])
    (hd : ∀ b s, a ≠ .deleteSub b s) (hd' : ∀ b p, a ≠ .deletePub b p) (e1 : w'.ns = w.ns) (e2 : w'.np = w.np) (e3 : w.nb ≤ w'.nb)
    (e4 : ∀ b, (w'.bus b).subs = (w.bus b).subs) (e5 : ∀ b, (w'.bus b).pubs = (w.bus b).pubs) : Listed w' (as ++ [a]) := by
  have s1 : subsMade (as ++ [a]) = subsMade as := by
    have : subsMade (as ++ [a]) = subsMade as ++ subsMade [a] := by simp only [subsMade, List.filterMap_append]
    rw [this, hs, List.append_nil]
  have s2 : pubsMade (as ++ [a]) = pubsMade as := by
    have : pubsMade (as ++ [a]) = pubsMade as ++ pubsMade [a] := by simp only [pubsMade, List.filterMap_append]
    rw [this, hp, List.append_nil]
  refine ⟨by rw [e1, s1]; exact h.ns, by rw [e2, s2]; exact h.np, fun b s => ?_, fun b p => ?_, fun b s hm => ?_, fun b p hm => ?_,
    fun b hm => ?_, fun b hm => ?_⟩
  · rw [e4, h.sub b s, s1]
    simp [List.mem_append, Ne.symm (hd b s)]
  · rw [e5, h.pub b p, s2]
    simp [List.mem_append, Ne.symm (hd' b p)]
  · rw [e1]
    rcases List.mem_append.1 hm with hm | hm
    · exact h.subLow b s hm
    · simp only [List.mem_singleton] at hm; exact absurd hm.symm (hd b s)
  · rw [e2]
    rcases List.mem_append.1 hm with hm | hm
    · exact h.pubLow b p hm
    · simp only [List.mem_singleton] at hm; exact absurd hm.symm (hd' b p)
  · rw [s1] at hm; exact Nat.lt_of_lt_of_le (h.home.1 b hm) e3
  · rw [s2] at hm; exact Nat.lt_of_lt_of_le (h.home.2 b hm) e3

theorem rstep_world {c : Choice} {σ σ' : St} (h : rstep c σ = some σ') :
    σ'.w.ns = σ.w.ns ∧ σ'.w.np = σ.w.np ∧ σ'.w.nb = σ.w.nb ∧ σ'.w.bus = σ.w.bus := by
  unfold rstep at h
  split at h <;> (try (cases h; exact ⟨rfl, rfl, rfl, rfl⟩))
  · split at h <;> (cases h; exact ⟨rfl, rfl, rfl, rfl⟩)
  · split at h <;> (cases h; exact ⟨rfl, rfl, rfl, rfl⟩)
  · cases h

theorem listed_step {σ σ' : St} {as : List Act} {a : Act} (h : Listed σ.w as) (hs : step σ a = some σ') : Listed σ'.w (as ++ [a]) := by
  cases a with
  | run c =>
    obtain ⟨e1, e2, e3, e4⟩ := rstep_world hs
    exact h.quiet rfl rfl (fun _ _ e => by cases e) (fun _ _ e => by cases e) e1 e2 (by omega) (fun b => by rw [e4]) (fun b => by rw [e4])
  | start =>
    simp only [step] at hs
    split at hs <;> cases hs
    refine h.quiet rfl rfl (fun _ _ e => by cases e) (fun _ _ e => by cases e) rfl rfl (Nat.le_refl _) (fun b => ?_) (fun b => ?_) <;>
      (simp only [setRunning, World.setBus]; split <;> simp_all)
  | startChild c =>
    simp only [step] at hs
    split at hs <;> cases hs
    refine h.quiet rfl rfl (fun _ _ e => by cases e) (fun _ _ e => by cases e) rfl rfl (Nat.le_refl _) (fun b => ?_) (fun b => ?_) <;>
      (simp only [setRunning, World.setBus]; split <;> simp_all)
  | stop c =>
    simp only [step] at hs
    split at hs <;> cases hs
    refine h.quiet rfl rfl (fun _ _ e => by cases e) (fun _ _ e => by cases e) rfl rfl (Nat.le_refl _) (fun b => ?_) (fun b => ?_) <;>
      (simp only [Bus.stop, World.setBus]; split <;> simp_all)
  | publish c m =>
    simp only [step] at hs
    split at hs <;> cases hs
    exact h.quiet rfl rfl (fun _ _ e => by cases e) (fun _ _ e => by cases e) rfl rfl (Nat.le_refl _) (fun _ => rfl) (fun _ => rfl)
  | pubPublish p d =>
    simp only [step] at hs
    split at hs <;> cases hs
    exact h.quiet rfl rfl (fun _ _ e => by cases e) (fun _ _ e => by cases e) rfl rfl (Nat.le_refl _) (fun _ => rfl) (fun _ => rfl)
  | push i =>
    simp only [step] at hs
    split at hs <;> cases hs
    exact h.quiet rfl rfl (fun _ _ e => by cases e) (fun _ _ e => by cases e) rfl rfl (Nat.le_refl _) (fun _ => rfl) (fun _ => rfl)
  | notify =>
    simp only [step] at hs
    split at hs <;> cases hs
    exact h.quiet rfl rfl (fun _ _ e => by cases e) (fun _ _ e => by cases e) rfl rfl (Nat.le_refl _) (fun _ => rfl) (fun _ => rfl)
  | setCb s cb =>
    simp only [step] at hs
    split at hs <;> cases hs
    exact h.quiet rfl rfl (fun _ _ e => by cases e) (fun _ _ e => by cases e) rfl rfl (Nat.le_refl _) (fun _ => rfl) (fun _ => rfl)
  | detachOne c =>
    simp only [step] at hs
    split at hs <;> cases hs
    refine h.quiet rfl rfl (fun _ _ e => by cases e) (fun _ _ e => by cases e) rfl rfl (Nat.le_refl _) (fun b => ?_) (fun b => ?_) <;>
      (simp only [Bus.detachOne, World.setBus]; split <;> simp_all)
  | createChild c name =>
    simp only [step] at hs
    split at hs <;> cases hs
    rename_i hc
    have hn : (σ.w.bus σ.w.nb).subs = [] ∧ (σ.w.bus σ.w.nb).pubs = [] := by
      constructor
      · cases e : (σ.w.bus σ.w.nb).subs with
        | nil => rfl
        | cons s ss =>
          have := ((h.sub σ.w.nb s).1 (by rw [e]; exact List.mem_cons_self)).1
          have := h.home.1 _ (List.mem_of_getElem? this); omega
      · cases e : (σ.w.bus σ.w.nb).pubs with
        | nil => rfl
        | cons s ss =>
          have := ((h.pub σ.w.nb s).1 (by rw [e]; exact List.mem_cons_self)).1
          have := h.home.2 _ (List.mem_of_getElem? this); omega
    show Listed (outcome σ.w (createChildBus c name σ.w)) _
    unfold createChildBus
    by_cases h1 : name = []
    · rw [if_pos h1]
      exact h.quiet rfl rfl (fun _ _ e => by cases e) (fun _ _ e => by cases e) rfl rfl (Nat.le_refl _) (fun _ => rfl) (fun _ => rfl)
    · rw [if_neg h1]
      split
      · exact h.quiet rfl rfl (fun _ _ e => by cases e) (fun _ _ e => by cases e) rfl rfl (Nat.le_refl _) (fun _ => rfl) (fun _ => rfl)
      · split
        · exact h.quiet rfl rfl (fun _ _ e => by cases e) (fun _ _ e => by cases e) rfl rfl (Nat.le_refl _) (fun _ => rfl) (fun _ => rfl)
        · refine h.quiet rfl rfl (fun _ _ e => by cases e) (fun _ _ e => by cases e) rfl rfl (Nat.le_succ _) (fun b => ?_) (fun b => ?_) <;>
            (simp only [outcome, World.setBus]; split
             · subst_vars; rfl
             · split
               · subst_vars; simp [hn]
               · rfl)
  | createSub c t cb =>
    simp only [step] at hs
    split at hs <;> cases hs
    rename_i hc
    show Listed (outcome σ.w (createSubscriber c t cb σ.w)) _
    have s1 : subsMade (as ++ [.createSub c t cb]) = subsMade as ++ [c] := by simp [subsMade]
    have s2 : pubsMade (as ++ [.createSub c t cb]) = pubsMade as := by simp [pubsMade]
    have hold : ∀ b s, (subsMade as)[s]? = some b → s < σ.w.ns := fun b s e => by
      rw [h.ns]; exact (List.getElem?_eq_some_iff.1 e).1
    refine ⟨?_, ?_, fun b s => ?_, fun b p => ?_, fun b s hm => ?_, fun b p hm => ?_, fun b hm => ?_, fun b hm => ?_⟩
    · rw [s1, List.length_append, ← h.ns]; rfl
    · rw [s2]; exact h.np
    · rw [s1]
      simp only [createSubscriber, outcome, World.setBus, World.setSub]
      have hdel : (Act.deleteSub b s ∉ as ++ [.createSub c t cb]) ↔ Act.deleteSub b s ∉ as := by simp
      rw [hdel]
      by_cases es : s = σ.w.ns
      · have e1 : (subsMade as ++ [c])[s]? = some c := by rw [es, h.ns]; simp
        have e2 : Act.deleteSub b s ∉ as := fun hm => by have := h.subLow b s hm; omega
        have e3 : s ∉ (σ.w.bus b).subs := fun hm => by have := hold b s ((h.sub b s).1 hm).1; omega
        rw [e1]
        by_cases eb : b = c
        · subst eb; simp [es]; exact es ▸ e2
        · rw [if_neg eb]
          simp [e3, Ne.symm eb]
      · have e1 : (subsMade as ++ [c])[s]? = (subsMade as)[s]? := by
          rw [List.getElem?_append]
          split
          · rfl
          · rename_i hge
            have hs' : s ≠ (subsMade as).length := fun e => es (by rw [h.ns]; exact e)
            rw [List.getElem?_eq_none (by simp; omega), List.getElem?_eq_none (by omega)]
        rw [e1, ← h.sub b s]
        by_cases eb : b = c
        · subst eb; simp [es]
        · rw [if_neg eb]
    · rw [s2]
      have hdel : (Act.deletePub b p ∉ as ++ [.createSub c t cb]) ↔ Act.deletePub b p ∉ as := by simp
      rw [hdel, ← h.pub b p]
      simp only [createSubscriber, outcome, World.setBus, World.setSub]
      split <;> simp_all
    · have : Act.deleteSub b s ∈ as := by simpa using hm
      exact Nat.lt_succ_of_lt (h.subLow b s this)
    · have : Act.deletePub b p ∈ as := by simpa using hm
      exact h.pubLow b p this
    · rw [s1] at hm
      rcases List.mem_append.1 hm with hm | hm
      · exact h.home.1 b hm
      · simp only [List.mem_singleton] at hm; rw [hm]; exact hc.1
    · rw [s2] at hm; exact h.home.2 b hm
  | createPub c t =>
    simp only [step] at hs
    split at hs <;> cases hs
    rename_i hc
    show Listed (outcome σ.w (createPublisher c t σ.w)) _
    have s1 : pubsMade (as ++ [.createPub c t]) = pubsMade as ++ [c] := by simp [pubsMade]
    have s2 : subsMade (as ++ [.createPub c t]) = subsMade as := by simp [subsMade]
    have hold : ∀ b s, (pubsMade as)[s]? = some b → s < σ.w.np := fun b s e => by
      rw [h.np]; exact (List.getElem?_eq_some_iff.1 e).1
    refine ⟨?_, ?_, fun b p => ?_, fun b s => ?_, fun b p hm => ?_, fun b s hm => ?_, fun b hm => ?_, fun b hm => ?_⟩
    · rw [s2]; exact h.ns
    · rw [s1, List.length_append, ← h.np]; rfl
    · rw [s2]
      have hdel : (Act.deleteSub b p ∉ as ++ [.createPub c t]) ↔ Act.deleteSub b p ∉ as := by simp
      rw [hdel, ← h.sub b p]
      simp only [createPublisher, outcome, World.setBus, World.setPub]
      split <;> simp_all
    · rw [s1]
      simp only [createPublisher, outcome, World.setBus, World.setPub]
      have hdel : (Act.deletePub b s ∉ as ++ [.createPub c t]) ↔ Act.deletePub b s ∉ as := by simp
      rw [hdel]
      by_cases es : s = σ.w.np
      · have e1 : (pubsMade as ++ [c])[s]? = some c := by rw [es, h.np]; simp
        have e2 : Act.deletePub b s ∉ as := fun hm => by have := h.pubLow b s hm; omega
        have e3 : s ∉ (σ.w.bus b).pubs := fun hm => by have := hold b s ((h.pub b s).1 hm).1; omega
        rw [e1]
        by_cases eb : b = c
        · subst eb; simp [es]; exact es ▸ e2
        · rw [if_neg eb]
          simp [e3, Ne.symm eb]
      · have e1 : (pubsMade as ++ [c])[s]? = (pubsMade as)[s]? := by
          rw [List.getElem?_append]
          split
          · rfl
          · rename_i hge
            have hs' : s ≠ (pubsMade as).length := fun e => es (by rw [h.np]; exact e)
            rw [List.getElem?_eq_none (by simp; omega), List.getElem?_eq_none (by omega)]
        rw [e1, ← h.pub b s]
        by_cases eb : b = c
        · subst eb; simp [es]
        · rw [if_neg eb]
    · have : Act.deleteSub b p ∈ as := by simpa using hm
      exact h.subLow b p this
    · have : Act.deletePub b s ∈ as := by simpa using hm
      exact Nat.lt_succ_of_lt (h.pubLow b s this)
    · rw [s2] at hm; exact h.home.1 b hm
    · rw [s1] at hm
      rcases List.mem_append.1 hm with hm | hm
      · exact h.home.2 b hm
      · simp only [List.mem_singleton] at hm; rw [hm]; exact hc
  | deleteSub c x =>
    simp only [step] at hs
    split at hs <;> cases hs
    rename_i hc
    show Listed (outcome σ.w (deleteSubscriber c (some x) σ.w)) _
    have s1 : subsMade (as ++ [.deleteSub c x]) = subsMade as := by simp [subsMade]
    have s2 : pubsMade (as ++ [.deleteSub c x]) = pubsMade as := by simp [pubsMade]
    refine ⟨by rw [s1]; exact h.ns, by rw [s2]; exact h.np, fun b s => ?_, fun b p => ?_, fun b s hm => ?_, fun b p hm => ?_, ?_, ?_⟩
    · rw [s1]
      have hx := h.sub b s
      simp only [deleteSubscriber, outcome, World.setBus, World.setSub]
      by_cases eb : b = c
      · subst eb
        simp only [if_true, List.mem_filter, hx, List.mem_append, List.mem_singleton, Act.deleteSub.injEq]
        simp; grind
      · rw [if_neg eb, hx]
        simp [eb]
    · rw [s2]
      have hx := h.pub b p
      simp only [deleteSubscriber, outcome, World.setBus, World.setSub]
      split <;> simp_all
    · simp only [List.mem_append, List.mem_singleton, Act.deleteSub.injEq] at hm
      rcases hm with hm | hm
      · exact h.subLow b s hm
      · rw [hm.2]; exact hc.2.1
    · have : Act.deletePub b p ∈ as := by simpa using hm
      exact h.pubLow b p this
    · rw [s1]; exact h.home.1
    · rw [s2]; exact h.home.2
  | deletePub c x =>
    simp only [step] at hs
    split at hs <;> cases hs
    rename_i hc
    show Listed (outcome σ.w (deletePublisher c (some x) σ.w)) _
    have s1 : subsMade (as ++ [.deletePub c x]) = subsMade as := by simp [subsMade]
    have s2 : pubsMade (as ++ [.deletePub c x]) = pubsMade as := by simp [pubsMade]
    refine ⟨by rw [s1]; exact h.ns, by rw [s2]; exact h.np, fun b p => ?_, fun b s => ?_, fun b p hm => ?_, fun b s hm => ?_, ?_, ?_⟩
    · rw [s1]
      have hx := h.sub b p
      simp only [deletePublisher, outcome, World.setBus, World.setPub]
      split <;> simp_all
    · rw [s2]
      have hx := h.pub b s
      simp only [deletePublisher, outcome, World.setBus, World.setPub]
      by_cases eb : b = c
      · subst eb
        simp only [if_true, List.mem_filter, hx, List.mem_append, List.mem_singleton, Act.deletePub.injEq]
        simp; grind
      · rw [if_neg eb, hx]
        simp [eb]
    · have : Act.deleteSub b p ∈ as := by simpa using hm
      exact h.subLow b p this
    · simp only [List.mem_append, List.mem_singleton, Act.deletePub.injEq] at hm
      rcases hm with hm | hm
      · exact h.pubLow b s hm
      · rw [hm.2]; exact hc.2
    · rw [s1]; exact h.home.1
    · rw [s2]; exact h.home.2

theorem listed {name : Str} {σ₀ σ : St} {as : List Act} (h0 : initial name = some σ₀) (he : exec σ₀ as = some σ) : Listed σ.w as := by
  induction as using acts_rec generalizing σ with
  | h0 =>
    simp only [exec, Option.some.injEq] at he
    subst he
    unfold initial newRoot at h0
    split at h0
    · cases h0
    · rename_i w hw
      cases h0
      split at hw
      · cases hw
      · cases hw
        refine ⟨rfl, rfl, fun b s => ?_, fun b s => ?_, ?_, ?_, ?_, ?_⟩ <;> simp [subsMade, pubsMade]
        · split <;> simp [noBus]
        · split <;> simp [noBus]
  | h1 as a ih =>
    rw [exec_snoc] at he
    obtain ⟨τ, e1, e2⟩ := Option.bind_eq_some_iff.1 he
    exact listed_step (ih e1) e2

end LP.Bus
