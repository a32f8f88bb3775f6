import Verif.Spec.Team
import Verif.Lemma.BusMore
/-!
# The invariant of several threads in `Start`
-/
namespace LP.Team
open LP.Bus

/-- Where the owner of the mutex is. -/
def at_ (σ : St) : Phase :=
  match σ.owner with
  | none => .off
  | some i => match σ.team[i]? with
    | some (.run p) => p
    | _ => .off

/-- The hierarchy with the owner of the mutex as the only bus thread. -/
def view (σ : St) : Bus.St := { σ.base with phase := at_ σ }

/-- What holds in every reachable state. -/
structure TInv (σ : St) : Prop where
  excl : ∀ i p, σ.team[i]? = some (.run p) → p ≠ .asleep → σ.owner = some i
  own : ∀ i, σ.owner = some i → ∃ p, σ.team[i]? = some (.run p) ∧ p ≠ .asleep ∧ p ≠ .off
  inv : Inv (view σ)
  off : σ.base.phase = .off

/-- No messages and no activation of `Distribute`. -/
def Calm (p : Phase) : Prop := p.batch = [] ∧ ∀ m st cb b, p ≠ .visit m st cb b

theorem Calm.stack {p : Phase} (h : Calm p) : p.stack = [] := by
  cases p with
  | visit m st cb b => exact absurd rfl (h.2 m st cb b)
  | _ => rfl

theorem calm_off : Calm .off := ⟨rfl, fun _ _ _ _ h => by cases h⟩
theorem calm_top : Calm .top := ⟨rfl, fun _ _ _ _ h => by cases h⟩
theorem calm_pred : Calm .pred := ⟨rfl, fun _ _ _ _ h => by cases h⟩
theorem calm_woken : Calm .woken := ⟨rfl, fun _ _ _ _ h => by cases h⟩
theorem calm_asleep : Calm .asleep := ⟨rfl, fun _ _ _ _ h => by cases h⟩

theorem inv_calm {β : Bus.St} (hi : Inv β) (h : Calm β.phase) {p : Phase} (hp : Calm p) : Inv { β with phase := p } := by
  have := inv_quiet hi (p := p) (q := β.w.queue) (fs := []) hp.2 (by simp [h.1, hp.1]) (by simp)
  simpa using this

theorem live_calm {s k : Nat} {β : Bus.St} (hl : LiveInv s k β) (h : Calm β.phase) {p : Phase} (hp : Calm p) :
    LiveInv s k { β with phase := p } := by
  refine ⟨hl.exist, ?_⟩
  have := hl.got
  rw [h.stack] at this
  simp only [hp.stack]
  exact this

/-- What an event does to the hierarchy seen with one bus thread. -/
inductive Turn : Bool → Bus.St → Bus.St → Prop where
  | run {c : Choice} {β β' : Bus.St} : rstep c β = some β' → Turn (decide (c = .throwing)) β β'
  | sleep {c : Choice} {β β' : Bus.St} : rstep c β = some β' → β'.phase = .asleep → Turn (decide (c = .throwing)) β { β' with phase := .off }
  | ext {β β' : Bus.St} : External β β' → Turn false β β'
  | calm {β : Bus.St} {p : Phase} : Calm β.phase → Calm p → Turn false β { β with phase := p }

theorem inv_turn {t : Bool} {β β' : Bus.St} (hi : Inv β) (h : Turn t β β') : Inv β' := by
  cases h with
  | run h => exact inv_run hi h
  | sleep h hp => exact inv_calm (inv_run hi h) (hp ▸ calm_asleep) calm_off
  | ext h => exact inv_external hi h
  | calm h hp => exact inv_calm hi h hp

theorem live_turn {s k : Nat} {β β' : Bus.St} (hi : Inv β) (hk : LiveInv s k β) (hl : Live β.w s) (h : Turn false β β') :
    LiveInv s k β' := by
  generalize ht : false = t at h
  cases h with
  | run h => exact live_run hi hk hl (of_decide_eq_false ht.symm) h
  | sleep h hp => exact live_calm (live_run hi hk hl (of_decide_eq_false ht.symm) h) (hp ▸ calm_asleep) calm_off
  | ext h => exact live_external hi hk h
  | calm h hp => exact live_calm hk h hp

/-! ## Every event is such a turn -/

/-- A callback throws. -/
def Ev.throws : Ev → Bool
  | .go _ .throwing => true
  | _ => false

theorem at_none {σ : St} (h : σ.owner = none) : at_ σ = .off := by simp [at_, h]

theorem at_some {σ : St} {i : Nat} {p : Phase} (h : σ.owner = some i) (hp : σ.team[i]? = some (.run p)) : at_ σ = p := by
  simp [at_, h, hp]

theorem getElem?_set_ne' {l : List Pos} {i j : Nat} {p : Pos} (h : i ≠ j) : (l.set i p)[j]? = l[j]? := by
  rw [List.getElem?_set_ne h]

theorem getElem?_set_eq' {l : List Pos} {i : Nat} {p q : Pos} (h : l[i]? = some q) : (l.set i p)[i]? = some p := by
  rw [List.getElem?_set_self (List.getElem?_eq_some_iff.1 h).1]

/-- A thread that does not own the mutex moves to a place that does not need it. -/
theorem TInv.aside {σ : St} (h : TInv σ) {i : Nat} {p q : Pos} (hi : σ.team[i]? = some p) (hn : σ.owner ≠ some i)
    (hq : ∀ r, q = .run r → r = .asleep) {β : Bus.St} (hβ : Inv { β with phase := at_ σ })
    (hoff : β.phase = .off) :
    TInv { base := β, owner := σ.owner, team := σ.team.set i q } ∧
      at_ { base := β, owner := σ.owner, team := σ.team.set i q } = at_ σ := by
  have e : at_ { base := β, owner := σ.owner, team := σ.team.set i q } = at_ σ := by
    unfold at_
    cases ho : σ.owner with
    | none => rfl
    | some j =>
      have : i ≠ j := fun e => hn (by rw [ho, e])
      simp only [getElem?_set_ne' this]
  refine ⟨⟨?_, ?_, ?_, hoff⟩, e⟩
  · intro j r hj hr
    by_cases hij : i = j
    · subst hij
      rw [getElem?_set_eq' hi, Option.some.injEq] at hj
      exact absurd (hq r hj) hr
    · rw [getElem?_set_ne' hij] at hj
      exact h.excl j r hj hr
  · intro j hj
    have hij : i ≠ j := fun e => hn (by rw [← e] at hj; exact hj)
    simp only [getElem?_set_ne' hij]
    exact h.own j hj
  · unfold view
    rw [e]; exact hβ

/-- A thread gets the mutex. -/
theorem TInv.enter {σ : St} (h : TInv σ) {i : Nat} {p : Pos} (hi : σ.team[i]? = some p) (hn : σ.owner = none)
    {q : Phase} (hq : Calm q) (hq1 : q ≠ .asleep) (hq2 : q ≠ .off) :
    TInv ({ σ with owner := some i }.move i (.run q)) ∧ Turn false (view σ) (view ({ σ with owner := some i }.move i (.run q))) := by
  have e : at_ ({ σ with owner := some i }.move i (.run q)) = q := by
    simp only [at_, St.move, getElem?_set_eq' hi]
  have ev : view ({ σ with owner := some i }.move i (.run q)) = { view σ with phase := q } := by
    unfold view
    rw [e]; rfl
  have hc : Calm (view σ).phase := by simp only [view, at_none hn]; exact calm_off
  refine ⟨⟨?_, ?_, ?_, h.off⟩, ?_⟩
  · intro j r hj hr
    by_cases hij : i = j
    · subst hij; rfl
    · simp only [St.move, getElem?_set_ne' hij] at hj
      exact absurd (h.excl j r hj hr) (by rw [hn]; simp)
  · intro j hj
    simp only [St.move, Option.some.injEq] at hj
    subst hj
    exact ⟨q, getElem?_set_eq' hi, hq1, hq2⟩
  · rw [ev]; exact inv_calm h.inv hc hq
  · rw [ev]; exact .calm hc hq

/-- The owner makes a step. -/
theorem TInv.run {σ : St} (h : TInv σ) {i : Nat} {p : Phase} (hi : σ.team[i]? = some (.run p)) (hp : p ≠ .asleep)
    {c : Choice} {τ : Bus.St} (hr : rstep c { σ.base with phase := p } = some τ) :
    TInv (arrive σ i τ) ∧ Turn (decide (c = .throwing)) (view σ) (view (arrive σ i τ)) := by
  have ho := h.excl i p hi hp
  have ev : view σ = { σ.base with phase := p } := by simp only [view, at_some ho hi]
  have hx : Inv τ := inv_run (ev ▸ h.inv) hr
  have hothers : ∀ j r q, i ≠ j → (σ.team.set i q)[j]? = some (.run r) → r ≠ .asleep → False := by
    intro j r q hij hj hr
    rw [getElem?_set_ne' hij] at hj
    have := h.excl j r hj hr
    rw [ho, Option.some.injEq] at this
    exact hij this
  have keep : ∀ q : Phase, τ.phase = q → q ≠ .off → q ≠ .asleep →
      arrive σ i τ = ⟨{ τ with phase := .off }, σ.owner, σ.team.set i (.run q)⟩ →
      TInv (arrive σ i τ) ∧ Turn (decide (c = .throwing)) (view σ) (view (arrive σ i τ)) := by
    intro q hq h1 h2 e
    have ev' : view (arrive σ i τ) = τ := by
      rw [e]; unfold view
      rw [at_some (σ := ⟨{ τ with phase := .off }, σ.owner, σ.team.set i (.run q)⟩) (p := q) ho (getElem?_set_eq' hi), ← hq]
    refine ⟨⟨?_, ?_, ?_, by rw [e]⟩, ?_⟩
    · rw [e]
      intro j r hj hr
      by_cases hij : i = j
      · subst hij; exact ho
      · exact (hothers j r _ hij hj hr).elim
    · rw [e]
      intro j hj
      simp only [ho, Option.some.injEq] at hj
      subst hj
      exact ⟨q, getElem?_set_eq' hi, h2, h1⟩
    · rw [ev']; exact hx
    · rw [ev', ev]; exact .run hr
  have leave : ∀ q : Pos, (∀ r, q = .run r → r = .asleep) →
      arrive σ i τ = ⟨{ τ with phase := .off }, none, σ.team.set i q⟩ → Inv { τ with phase := .off } →
      TInv (arrive σ i τ) ∧ view (arrive σ i τ) = { τ with phase := .off } := by
    intro q hq e hinv
    have ev' : view (arrive σ i τ) = { τ with phase := .off } := by rw [e]; rfl
    refine ⟨⟨?_, ?_, by rw [ev']; exact hinv, by rw [e]⟩, ev'⟩
    · rw [e]
      intro j r hj hr
      by_cases hij : i = j
      · subst hij
        rw [getElem?_set_eq' hi, Option.some.injEq] at hj
        exact absurd (hq r hj) hr
      · exact (hothers j r _ hij hj hr).elim
    · rw [e]; intro j hj; cases hj
  cases hph : τ.phase with
  | off =>
    obtain ⟨h1, h2⟩ := leave .out (fun r e => by cases e) (by simp only [arrive, hph]) (by
      have := hx; rwa [← (show { τ with phase := .off } = τ by rw [← hph])] at this)
    refine ⟨h1, ?_⟩
    rw [h2, ev, show { τ with phase := .off } = τ by rw [← hph]]
    exact .run hr
  | asleep =>
    obtain ⟨h1, h2⟩ := leave (.run .asleep) (fun r e => by cases e; rfl) (by simp only [arrive, hph])
      (inv_calm hx (hph ▸ calm_asleep) calm_off)
    refine ⟨h1, ?_⟩
    rw [h2, ev]
    exact .sleep hr hph
  | top => exact keep _ hph (by simp) (by simp) (by simp only [arrive, hph])
  | pred => exact keep _ hph (by simp) (by simp) (by simp only [arrive, hph])
  | drowsy => exact keep _ hph (by simp) (by simp) (by simp only [arrive, hph])
  | woken => exact keep _ hph (by simp) (by simp) (by simp only [arrive, hph])
  | drain => exact keep _ hph (by simp) (by simp) (by simp only [arrive, hph])
  | loop b => exact keep _ hph (by simp) (by simp) (by simp only [arrive, hph])
  | visit m st cb b => exact keep _ hph (by simp) (by simp) (by simp only [arrive, hph])

theorem not_owner {σ : St} (h : TInv σ) {i : Nat} {p : Pos} (hi : σ.team[i]? = some p)
    (hp : ∀ r, p = .run r → r = .asleep) : σ.owner ≠ some i := by
  intro ho
  obtain ⟨q, hq, h1, _⟩ := h.own i ho
  rw [hi, Option.some.injEq] at hq
  exact h1 (hp q hq)

/-- The phase has no part in what the other calls do. -/
theorem api_phase {β τ : Bus.St} {a : Bus.Act} (hf : free a = true) (h : Bus.step { β with phase := .off } a = some τ)
    {p : Phase} (hs : (Bus.step { β with phase := p } a).isSome = true) :
    Bus.step { β with phase := p } a = some { τ with phase := p } ∧ τ.phase = .off := by
  cases a with
  | run c => cases hf
  | start => cases hf
  | notify => cases hf
  | push i =>
    simp only [Bus.step] at h hs ⊢
    cases hi : β.inflight[i]? with
    | none => simp [hi] at h
    | some m => simp only [hi] at h hs ⊢; cases h; exact ⟨rfl, rfl⟩
  | _ =>
    simp only [Bus.step] at h hs ⊢
    split at h <;> try contradiction
    split at hs <;> try contradiction
    cases h
    rename_i h1 h2
    exact ⟨by first | rw [if_pos h2] | rw [if_pos h1], rfl⟩

theorem free_run {a : Bus.Act} (h : free a = true) (c : Choice) : a ≠ .run c := by rintro rfl; cases h

theorem raise_external {β : Bus.St} (hw : WOk β.w) : External β { β with w := setRunning 0 β.w } :=
  external_setBus (σ := β) hw (b := 0) (x := { β.w.bus 0 with running := true }) rfl rfl rfl id

theorem nop_external {β : Bus.St} (hw : WOk β.w) (n : Nat) : External β { β with toNotify := n } :=
  ⟨hw, .refl _, fun b h1 h2 => absurd h2 (by simp only; omega), fun _ _ => rfl, fun _ _ _ => id, fun _ _ => id,
    .inl rfl, rfl, rfl, ⟨[], by simp, by simp⟩⟩

theorem tinv_step {σ σ' : St} {e : Ev} (h : TInv σ) (hs : step σ e = .to σ') :
    TInv σ' ∧ Turn e.throws (view σ) (view σ') := by
  cases e with
  | start i =>
    simp only [step] at hs
    split at hs <;> try contradiction
    rename_i hi
    cases hs
    have hx := raise_external (β := view σ) h.inv.wok
    obtain ⟨h1, h2⟩ := h.aside (q := .want) (β := { σ.base with w := setRunning 0 σ.base.w }) hi
      (not_owner h hi (fun r e => by cases e)) (fun r e => by cases e) (inv_external h.inv hx) h.off
    refine ⟨h1, ?_⟩
    have : view (St.move { σ with base := { σ.base with w := setRunning 0 σ.base.w } } i .want) =
        { view σ with w := setRunning 0 (view σ).w } := by
      unfold view
      simp only [St.move]
      rw [h2]
    rw [this]
    exact .ext hx
  | lock i =>
    simp only [step] at hs
    split at hs <;> try contradiction
    · rename_i ho hi; cases hs; exact h.enter hi ho calm_top (by simp) (by simp)
    · rename_i ho hi; cases hs; exact h.enter hi ho calm_pred (by simp) (by simp)
    · rename_i ho hi; cases hs; exact h.enter hi ho calm_woken (by simp) (by simp)
  | go i c =>
    simp only [step] at hs
    split at hs <;> try contradiction
    rename_i p hp hi
    split at hs <;> try contradiction
    rename_i τ hr
    cases hs
    have := h.run hi (fun e => hp (by rw [e])) hr
    have et : Ev.throws (.go i c) = decide (c = .throwing) := by cases c <;> rfl
    rw [et]; exact this
  | wake i t =>
    simp only [step] at hs
    split at hs <;> try contradiction
    rename_i hi
    cases hs
    obtain ⟨h1, h2⟩ := h.aside (q := .back t) (β := σ.base) hi
      (not_owner h hi (fun r e => by cases e; rfl)) (fun r e => by cases e) h.inv h.off
    refine ⟨h1, ?_⟩
    have : view (σ.move i (.back t)) = view σ := by
      unfold view
      simp only [St.move]
      rw [h2]
    rw [this]
    exact .ext (nop_external h.inv.wok _)
  | notify k =>
    simp only [step] at hs
    split at hs <;> try contradiction
    have hx := nop_external (β := view σ) h.inv.wok (σ.base.toNotify - 1)
    split at hs
    · split at hs <;> try contradiction
      cases hs
      refine ⟨⟨h.excl, h.own, inv_external h.inv hx, h.off⟩, ?_⟩
      exact .ext hx
    · rename_i i
      split at hs <;> try contradiction
      rename_i hi
      cases hs
      obtain ⟨h1, h2⟩ := h.aside (q := .back false) (β := { σ.base with toNotify := σ.base.toNotify - 1 }) hi
        (not_owner h hi (fun r e => by cases e; rfl)) (fun r e => by cases e) (inv_external h.inv hx) h.off
      refine ⟨h1, ?_⟩
      have : view (St.move { σ with base := { σ.base with toNotify := σ.base.toNotify - 1 } } i (.back false)) =
          { view σ with toNotify := σ.base.toNotify - 1 } := by
        unfold view
        simp only [St.move]
        rw [h2]
      rw [this]
      exact .ext hx
  | api a =>
    simp only [step] at hs
    split at hs <;> try contradiction
    rename_i hc
    rw [Bool.and_eq_true] at hc
    split at hs <;> try contradiction
    rename_i τ hτ
    cases hs
    have hsome : (Bus.step { σ.base with phase := at_ σ } a).isSome = true := by
      have off : (Bus.step { σ.base with phase := .off } a).isSome = true := by rw [hτ]; rfl
      unfold at_
      split
      · exact off
      · split
        · rename_i p hi
          have := List.all_eq_true.1 hc.2 _ (List.mem_of_getElem? hi)
          exact this
        · exact off
    obtain ⟨h1, h2⟩ := api_phase hc.1 hτ hsome
    have hx := step_external h.inv.wok (free_run hc.1) h1
    have ev : view { σ with base := τ } = { τ with phase := at_ σ } := rfl
    refine ⟨⟨h.excl, h.own, ?_, h2⟩, ?_⟩
    · rw [ev]; exact inv_external h.inv hx
    · rw [ev]; exact .ext hx

theorem tinv_initial {name : Str} {n : Nat} {σ : St} (h : initial name n = some σ) : TInv σ := by
  unfold initial at h
  cases h0 : Bus.initial name with
  | none => simp [h0] at h
  | some β =>
    simp [h0] at h
    subst h
    have hp : β.phase = .off := by
      unfold Bus.initial at h0
      split at h0 <;> cases h0; rfl
    refine ⟨?_, ?_, ?_, hp⟩
    · intro i p hi
      rw [List.getElem?_replicate] at hi
      split at hi <;> cases hi
    · intro i hi; cases hi
    · have := inv_initial h0
      have e : view ⟨β, none, List.replicate n .out⟩ = β := by
        unfold view; rw [at_none rfl, ← hp]
      rw [e]; exact this

theorem tinv_exec {σ σ' : St} {es : List Ev} (h : TInv σ) (he : exec σ es = .to σ') : TInv σ' := by
  induction es generalizing σ with
  | nil => simp [exec] at he; subst he; exact h
  | cons e es ih =>
    simp only [exec] at he
    cases hs : step σ e with
    | cannot => simp [hs] at he
    | undefined => simp [hs] at he
    | to τ => simp only [hs] at he; exact ih (tinv_step h hs).1 he

theorem Reachable.tinv {σ : St} (h : Reachable σ) : TInv σ := by
  obtain ⟨name, n, σ₀, es, h0, he⟩ := h
  exact tinv_exec (tinv_initial h0) he

theorem live_texec {s k : Nat} {σ σ' : St} {es : List Ev} (h : TInv σ) (hk : LiveInv s k (view σ))
    (hl : Throughout (fun τ => Live τ.base.w s) σ es) (hc : ∀ e ∈ es, e.throws = false) (he : exec σ es = .to σ') :
    LiveInv s k (view σ') := by
  induction es generalizing σ with
  | nil => simp [exec] at he; subst he; exact hk
  | cons e es ih =>
    simp only [exec] at he
    cases hs : step σ e with
    | cannot => simp [hs] at he
    | undefined => simp [hs] at he
    | to τ =>
      simp only [hs] at he
      obtain ⟨h1, h2⟩ := tinv_step h hs
      rw [hc e (by simp)] at h2
      exact ih h1 (live_turn h.inv hk hl.1 h2) (hl.2 τ hs) (fun x hx => hc x (by simp [hx])) he

end LP.Team
