import Verif.Lemma.Team
/-!
# After `Stop` every thread leaves `Start`
-/
namespace LP.Team
open LP.Bus

/-- A bound on the steps of a thread that does not own the mutex until it is at the end of what it does without it, with
what it adds when it gets the mutex. -/
def rest : Pos → Nat
  | .out => 0
  | .want => 3
  | .back true => 3
  | .back false => 5
  | .run .asleep => 6
  | .run _ => 0

/-- A bound on the steps left. -/
def left (σ : St) : Nat := 2 * toExit (view σ) + (σ.team.map rest).sum

theorem sum_set {l : List Pos} {i : Nat} {p q : Pos} (h : l[i]? = some p) :
    ((l.set i q).map rest).sum + rest p = (l.map rest).sum + rest q := by
  induction l generalizing i with
  | nil => simp at h
  | cons x l ih =>
    cases i with
    | zero => simp at h; subst h; simp; omega
    | succ i =>
      simp at h
      have := ih h
      simp only [List.set_cons_succ, List.map_cons, List.sum_cons]; omega

theorem rest_run {p : Phase} (h : p ≠ .asleep) : rest (.run p) = 0 := by
  cases p <;> first | rfl | exact absurd rfl h

theorem api_view {σ σ' : St} {a : Bus.Act} (hs : step σ (.api a) = .to σ') :
    free a = true ∧ Bus.step (view σ) a = some (view σ') ∧ σ'.team = σ.team ∧ σ'.owner = σ.owner := by
  simp only [step] at hs
  split at hs <;> try contradiction
  rename_i hc
  rw [Bool.and_eq_true] at hc
  split at hs <;> try contradiction
  rename_i τ hτ
  cases hs
  have hsome : (Bus.step { σ.base with phase := at_ σ } a).isSome = true := by
    have off : (Bus.step { σ.base with phase := .off } a).isSome = true := by rw [hτ]; rfl
    unfold at_
    split
    · exact off
    · split
      · rename_i p hi
        exact List.all_eq_true.1 hc.2 _ (List.mem_of_getElem? hi)
      · exact off
  exact ⟨hc.1, (api_phase hc.1 hτ hsome).1, rfl, rfl⟩

theorem step_go {σ : St} {i : Nat} {p : Phase} (hi : σ.team[i]? = some (.run p)) (hp : p ≠ .asleep) (c : Choice) :
    step σ (.go i c) = match rstep c { σ.base with phase := p } with
      | some τ => .to (arrive σ i τ)
      | none => .cannot := by
  cases p <;> first | exact absurd rfl hp | (simp only [step, hi]; generalize rstep c _ = r; cases r <;> rfl)

/-- What a step of the owner does to the measure. -/
theorem left_run {σ : St} (h : TInv σ) (hst : (σ.base.w.bus 0).running = false) {i : Nat} {p : Phase}
    (hi : σ.team[i]? = some (.run p)) (hp : p ≠ .asleep) {c : Choice} {τ : Bus.St}
    (hr : rstep c { σ.base with phase := p } = some τ) :
    left (arrive σ i τ) < left σ ∧ (arrive σ i τ).base.w = τ.w := by
  have ho := h.excl i p hi hp
  have ev : view σ = { σ.base with phase := p } := by simp only [view, at_some ho hi]
  have hlt := toExit_run (σ := { σ.base with phase := p }) (ev ▸ h.inv) hst hr
  rw [← ev] at hlt
  have keep : ∀ q : Phase, τ.phase = q → q ≠ .asleep →
      arrive σ i τ = ⟨{ τ with phase := .off }, σ.owner, σ.team.set i (.run q)⟩ →
      left (arrive σ i τ) < left σ := by
    intro q hq h2 e
    have ev' : view (arrive σ i τ) = τ := by
      rw [e]; unfold view
      rw [at_some (σ := ⟨{ τ with phase := .off }, σ.owner, σ.team.set i (.run q)⟩) (p := q) ho (getElem?_set_eq' hi), ← hq]
    have hsum := sum_set (q := .run q) hi
    rw [rest_run hp, rest_run h2] at hsum
    unfold left
    rw [ev', e]
    simp only
    omega
  have hw : (arrive σ i τ).base.w = τ.w := by
    unfold arrive; split <;> rfl
  refine ⟨?_, hw⟩
  cases hph : τ.phase with
  | off =>
    have e : arrive σ i τ = ⟨{ τ with phase := .off }, none, σ.team.set i .out⟩ := by simp only [arrive, hph]
    have ev' : toExit (view (arrive σ i τ)) = 0 := by rw [e]; rfl
    have hsum := sum_set (q := .out) hi
    rw [rest_run hp] at hsum
    unfold left
    rw [ev', e]
    simp only [show rest .out = 0 from rfl] at hsum ⊢
    omega
  | asleep =>
    have e : arrive σ i τ = ⟨{ τ with phase := .off }, none, σ.team.set i (.run .asleep)⟩ := by simp only [arrive, hph]
    have ev' : toExit (view (arrive σ i τ)) = 0 := by rw [e]; rfl
    have hsum := sum_set (q := .run .asleep) hi
    rw [rest_run hp] at hsum
    have : toExit τ = 3 := by simp only [toExit, hph]
    unfold left
    rw [ev', e]
    simp only [show rest (.run .asleep) = 6 from rfl] at hsum ⊢
    omega
  | top => exact keep _ hph (by simp) (by simp only [arrive, hph])
  | pred => exact keep _ hph (by simp) (by simp only [arrive, hph])
  | drowsy => exact keep _ hph (by simp) (by simp only [arrive, hph])
  | woken => exact keep _ hph (by simp) (by simp only [arrive, hph])
  | drain => exact keep _ hph (by simp) (by simp only [arrive, hph])
  | loop b => exact keep _ hph (by simp) (by simp only [arrive, hph])
  | visit m st cb b => exact keep _ hph (by simp) (by simp only [arrive, hph])

theorem left_enter {σ : St} (hn : σ.owner = none) {i : Nat} {p : Pos} (hi : σ.team[i]? = some p) {q : Phase}
    (hq : q ≠ .asleep) (hr : 2 * toExit { σ.base with phase := q } < rest p) :
    left ({ σ with owner := some i }.move i (.run q)) < left σ := by
  have e : view ({ σ with owner := some i }.move i (.run q)) = { σ.base with phase := q } := by
    simp only [view, at_, St.move, getElem?_set_eq' hi]
  have e0 : toExit (view σ) = 0 := by simp only [view, at_none hn]; rfl
  have hsum := sum_set (q := .run q) hi
  rw [rest_run hq] at hsum
  unfold left
  rw [e, e0]
  have e1 : (({ σ with owner := some i } : St).move i (.run q)).team = σ.team.set i (.run q) := rfl
  rw [e1]
  generalize toExit { σ.base with phase := q } = x at hr ⊢
  omega

/-- A thread without the mutex goes on without it. -/
theorem left_aside {σ : St} {i : Nat} {p q : Pos} (hi : σ.team[i]? = some p) (hn : σ.owner ≠ some i) {β : Bus.St}
    (hw : β.w = σ.base.w) (hr : rest q < rest p) :
    left { base := β, owner := σ.owner, team := σ.team.set i q } < left σ := by
  have e : at_ { base := β, owner := σ.owner, team := σ.team.set i q } = at_ σ := by
    unfold at_
    cases ho : σ.owner with
    | none => rfl
    | some j =>
      have : i ≠ j := fun e => hn (by rw [ho, e])
      simp only [getElem?_set_ne' this]
  have e2 : toExit (view { base := β, owner := σ.owner, team := σ.team.set i q }) = toExit (view σ) := by
    unfold toExit view
    rw [e]
    simp only [hw]
  have hsum := sum_set (q := q) hi
  unfold left
  rw [e2]
  simp only
  omega

theorem left_step {σ σ' : St} {e : Ev} (h : TInv σ) (hst : (σ.base.w.bus 0).running = false) (ht : e.tame = true)
    (hs : step σ e = .to σ') : (σ'.base.w.bus 0).running = false ∧ unit σ'.base.w ≤ unit σ.base.w ∧
      left σ' + (if e.own then 1 else 0) ≤ left σ + (if e.queues then 2 * unit σ.base.w else 0) := by
  cases e with
  | start i => cases ht
  | lock i =>
    simp only [step] at hs
    split at hs <;> try contradiction
    all_goals
      rename_i ho hi
      cases hs
      refine ⟨hst, Nat.le_refl _, ?_⟩
      simp only [Ev.own, Ev.queues]
      simp
      exact left_enter ho hi (by simp) (by simp [toExit, rest])
  | go i c =>
    simp only [step] at hs
    split at hs <;> try contradiction
    rename_i p hp hi
    split at hs <;> try contradiction
    rename_i τ hr
    cases hs
    obtain ⟨h1, h2⟩ := left_run h hst hi (fun e => hp (by rw [e])) hr
    refine ⟨?_, ?_, ?_⟩
    · rw [h2, (run_bus hr).1]; exact hst
    · rw [h2, run_unit hr]; exact Nat.le_refl _
    · simp only [Ev.own, Ev.queues]; simp; exact h1
  | wake i t =>
    simp only [step] at hs
    split at hs <;> try contradiction
    rename_i hi
    cases hs
    refine ⟨hst, Nat.le_refl _, ?_⟩
    simp only [Ev.own, Ev.queues]
    simp
    exact left_aside (q := .back t) hi (not_owner h hi (fun r e => by cases e; rfl)) rfl (by cases t <;> simp [rest])
  | notify k =>
    simp only [step] at hs
    split at hs <;> try contradiction
    split at hs
    · split at hs <;> try contradiction
      cases hs
      exact ⟨hst, Nat.le_refl _, Nat.le_refl _⟩
    · rename_i i
      split at hs <;> try contradiction
      rename_i hi
      cases hs
      refine ⟨hst, Nat.le_refl _, ?_⟩
      simp only [Ev.own, Ev.queues]
      simp
      exact Nat.le_of_lt (left_aside (q := .back false) hi (not_owner h hi (fun r e => by cases e; rfl)) rfl (by simp [rest]))
  | api a =>
    obtain ⟨hf, h1, h2, _⟩ := api_view hs
    have hr : a.isRun = false := by cases a <;> first | rfl | cases hf
    have hc : a.creates = false := by cases a <;> first | rfl | cases ht
    have hns : a ≠ .start := by rintro rfl; cases hf
    have hst' := stopped_step h.inv hns hst h1
    have hx := toExit_external hr hc hns h1
    refine ⟨hst', unit_shrinks (step_shrinks hr hc h1).1, ?_⟩
    have eq : Ev.queues (.api a) = a.isPush := by cases a <;> rfl
    rw [eq]
    simp only [Ev.own, left, h2]
    have : (view σ).w = σ.base.w := rfl
    rw [this] at hx
    cases hp : a.isPush <;> simp [hp] at hx ⊢ <;> omega

theorem leave_bound {σ σ' : St} {es : List Ev} (h : TInv σ) (hst : (σ.base.w.bus 0).running = false)
    (ht : ∀ e ∈ es, e.tame = true) (he : exec σ es = .to σ') :
    es.countP Ev.own + left σ' ≤ left σ + 2 * unit σ.base.w * es.countP Ev.queues := by
  induction es generalizing σ with
  | nil => simp [exec] at he; subst he; simp
  | cons e es ih =>
    simp only [exec] at he
    cases hs : step σ e with
    | cannot => simp [hs] at he
    | undefined => simp [hs] at he
    | to τ =>
      simp only [hs] at he
      obtain ⟨h1, h2, h3⟩ := left_step h hst (ht e (by simp)) hs
      have := ih (tinv_step h hs).1 h1 (fun x hx => ht x (by simp [hx])) he
      have hm := Nat.mul_le_mul_right (es.countP Ev.queues) (Nat.mul_le_mul_left 2 h2)
      have hsucc : 2 * unit σ.base.w * (es.countP Ev.queues + 1) =
        2 * unit σ.base.w * es.countP Ev.queues + 2 * unit σ.base.w := Nat.mul_succ _ _
      simp only [List.countP_cons]
      cases ho : e.own <;> cases hq : e.queues <;> simp [ho, hq] at h3 ⊢ <;> omega

/-- As long as somebody is in `Start`, some thread in it can go on. -/
theorem enabled {σ : St} (h : TInv σ) {i : Nat} {p : Pos} (hi : σ.team[i]? = some p) (hp : Inside p) :
    ∃ e σ', e.own = true ∧ e.throws = false ∧ step σ e = .to σ' := by
  cases ho : σ.owner with
  | some j =>
    obtain ⟨q, hq, h1, h2⟩ := h.own j ho
    obtain ⟨τ, hτ⟩ := run_enabled { σ.base with phase := q } h2
    refine ⟨.go j .go, arrive σ j τ, rfl, rfl, ?_⟩
    rw [step_go hq h1, hτ]
  | none =>
    cases p with
    | out => exact hp.elim
    | want => exact ⟨.lock i, _, rfl, rfl, by simp only [step, ho, hi]; rfl⟩
    | back t => cases t <;> exact ⟨.lock i, _, rfl, rfl, by simp only [step, ho, hi]; rfl⟩
    | run q =>
      by_cases hq : q = .asleep
      · subst hq; exact ⟨.wake i true, _, rfl, rfl, by simp only [step, hi]; rfl⟩
      · exact absurd (h.excl i q hi hq) (by rw [ho]; simp)

theorem own_tame {e : Ev} (h : e.own = true) : e.tame = true ∧ e.queues = false := by
  cases e <;> first | exact ⟨rfl, rfl⟩ | cases h

theorem all_leave {σ : St} (h : TInv σ) (hst : (σ.base.w.bus 0).running = false) :
    ∃ es σ', (∀ e ∈ es, e.own = true ∧ e.throws = false) ∧ exec σ es = .to σ' ∧ ∀ p ∈ σ'.team, p = .out := by
  generalize hN : left σ = N
  induction N using Nat.strongRecOn generalizing σ with
  | _ N ih =>
    by_cases hall : ∀ p ∈ σ.team, p = .out
    · exact ⟨[], σ, by simp, rfl, hall⟩
    · have : ∃ p ∈ σ.team, p ≠ .out := by
        apply Classical.byContradiction
        intro hno
        exact hall (fun p hp => Classical.byContradiction (fun hq => hno ⟨p, hp, hq⟩))
      obtain ⟨p, hp, hne⟩ := this
      obtain ⟨i, hi, he⟩ := List.mem_iff_getElem.1 hp
      obtain ⟨e, τ, h1, h2, h3⟩ := enabled h (i := i) (p := p) (by rw [List.getElem?_eq_getElem hi, he])
        (by cases p <;> first | exact trivial | exact absurd rfl hne)
      obtain ⟨ht, hq⟩ := own_tame h1
      obtain ⟨k1, _, k3⟩ := left_step h hst ht h3
      rw [h1, hq] at k3
      simp at k3
      obtain ⟨es, σ', g1, g2, g3⟩ := ih (left τ) (by omega) (tinv_step h h3).1 k1 rfl
      refine ⟨e :: es, σ', ?_, by simp only [exec, h3]; exact g2, g3⟩
      intro x hx
      rcases List.mem_cons.1 hx with rfl | hx
      · exact ⟨h1, h2⟩
      · exact g1 x hx

end LP.Team
