import Verif.Model.Worker
/-!
# Worker threads of plugin instances (C62)
-/
namespace LP.Worker

/-- The calls of the owner follow the discipline: a `Start` is followed by a `Stop` before the next `Start` or the
destruction, and the plugin leaves its flag alone. The flag tells whether a `Start` is waiting for its `Stop`. -/
def Disciplined : Bool → List Act → Prop
  | _, [] => True
  | b, .start :: as => b = false ∧ Disciplined true as
  | _, .stop :: as => Disciplined false as
  | b, .destroy :: as => b = false ∧ Disciplined b as
  | _, .pluginClears :: _ => False
  | b, .join :: as => Disciplined b as
  | b, .workerReturns :: as => Disciplined b as

/-- Whether a `Start` is waiting for its `Stop` after the given calls. -/
def open_ : Bool → List Act → Bool
  | b, [] => b
  | _, .start :: as => open_ true as
  | _, .stop :: as => open_ false as
  | b, _ :: as => open_ b as

/-- What holds in a disciplined history. -/
def Good (b : Bool) (σ : St) : Prop :=
  (σ.ended = none ∨ σ.ended = some .destroyed) ∧ σ.shouldRun = b ∧
  (σ.owner ≠ .destroying) ∧
  (b = true → σ.thread ≠ none ∧ σ.owner = .idle) ∧
  (b = false → (σ.owner = .joining ↔ σ.thread ≠ none)) ∧
  (σ.thread = none → σ.joined = σ.started) ∧ (σ.thread ≠ none → σ.joined + 1 = σ.started)

theorem good_exec {b : Bool} {as : List Act} {σ σ' : St} (hd : Disciplined b as) (hg : Good b σ)
    (he : exec σ as = some σ') : Good (open_ b as) σ' := by
  induction as generalizing b σ with
  | nil => cases he; exact hg
  | cons a as ih =>
    rw [exec, Option.bind_eq_some_iff] at he
    obtain ⟨σ1, h1, h2⟩ := he
    obtain ⟨sr, th, ow, en, st, jo⟩ := σ
    obtain ⟨g1, g2, g3, g4, g5, g6, g7⟩ := hg
    simp only at g1 g2 g3 g4 g5 g6 g7
    subst g2
    unfold step at h1
    cases hen : en with
    | some x => simp [hen] at h1
    | none =>
      subst hen
      cases a with
      | start =>
        obtain ⟨hb, hd⟩ := hd
        subst hb
        refine ih (b := true) hd ?_ h2
        cases ow with
        | idle =>
          cases th with
          | some t => simp at g5
          | none =>
            simp at h1
            subst h1
            simp at g6
            refine ⟨.inl rfl, rfl, by simp, fun _ => ⟨by simp, rfl⟩, (fun h => by cases h), (fun h => by cases h), fun _ => by simp [g6]⟩
        | joining => simp at h1
        | destroying => simp at h1
      | stop =>
        refine ih (b := false) hd ?_ h2
        cases ow with
        | idle =>
          cases sr with
          | true =>
            cases th with
            | none => simp at g4
            | some t =>
              simp at h1
              subst h1
              exact ⟨.inl rfl, rfl, by simp, (fun h => by cases h), fun _ => by simp, (fun h => by cases h), fun h => g7 h⟩
          | false =>
            simp at h1
            subst h1
            exact ⟨.inl rfl, rfl, g3, g4, g5, g6, g7⟩
        | joining => simp at h1
        | destroying => simp at h1
      | join =>
        refine ih (b := sr) hd ?_ h2
        cases ow with
        | idle => simp at h1
        | joining =>
          simp at h1
          obtain ⟨ht, h1⟩ := h1
          subst h1
          subst ht
          have hsr : sr = false := by cases sr <;> simp_all
          subst hsr
          simp at g7
          exact ⟨.inl rfl, rfl, by simp, (fun h => by cases h), fun _ => by simp, fun _ => by simp; omega, fun h => absurd rfl h⟩
        | destroying => simp at g3
      | destroy =>
        obtain ⟨hb, hd⟩ := hd
        subst hb
        refine ih (b := false) hd ?_ h2
        cases ow with
        | idle =>
          cases th with
          | some t => simp at g5
          | none =>
            simp [finish] at h1
            subst h1
            exact ⟨.inr rfl, rfl, by simp, g4, g5, g6, g7⟩
        | joining => simp at h1
        | destroying => simp at h1
      | workerReturns =>
        refine ih (b := sr) hd ?_ h2
        simp at h1
        obtain ⟨ht, h1⟩ := h1
        subst ht
        subst h1
        refine ⟨.inl rfl, rfl, g3, fun h => ⟨by simp, (g4 h).2⟩, fun h => ?_, (fun h => by cases h), fun _ => g7 (by simp)⟩
        have := g5 h
        simp at this ⊢
        exact this
      | pluginClears => exact absurd hd (by simp [Disciplined])

/-- Under the discipline the process is never terminated and nothing undefined happens, and every thread created is joined
at most once, the threads being used one after the other. -/
theorem C62_never_abandoned {as : List Act} {σ : St} (hd : Disciplined false as) (he : exec initial as = some σ) :
    (σ.ended = none ∨ σ.ended = some .destroyed) ∧ σ.joined ≤ σ.started ∧ σ.started ≤ σ.joined + 1 := by
  have hg : Good false initial := by
    refine ⟨.inl rfl, rfl, by simp [initial], (fun h => by cases h), fun _ => by simp [initial], fun _ => rfl, fun h => absurd rfl h⟩
  obtain ⟨h1, _, _, _, _, h6, h7⟩ := good_exec hd hg he
  refine ⟨h1, ?_⟩
  by_cases ht : σ.thread = none
  · have := h6 ht; omega
  · have := h7 ht; omega

/-- When `Stop` has returned (the last call was `Stop` and the owner is not waiting any more), the worker has left `Run` and
every thread ever created has been joined; another `Stop` changes nothing. -/
theorem C62_stop_joins {as : List Act} {σ : St} (hd : Disciplined false as) (he : exec initial as = some σ)
    (hlast : open_ false as = false) (hidle : σ.owner = .idle) :
    σ.thread = none ∧ σ.joined = σ.started ∧ (σ.ended = none → step σ .stop = some σ) := by
  have hg : Good false initial := by
    refine ⟨.inl rfl, rfl, by simp [initial], (fun h => by cases h), fun _ => by simp [initial], fun _ => rfl, fun h => absurd rfl h⟩
  have hg' := good_exec hd hg he
  rw [hlast] at hg'
  obtain ⟨h1, h2, h3, h4, h5, h6, h7⟩ := hg'
  have ht : σ.thread = none := by
    cases hth : σ.thread with
    | none => rfl
    | some t =>
      have := (h5 rfl).2 (by rw [hth]; simp)
      rw [hidle] at this; cases this
  refine ⟨ht, h6 ht, fun hn => ?_⟩
  obtain ⟨sr, th, ow, en, st, jo⟩ := σ
  simp only at hidle h2 hn
  subst hidle h2 hn
  simp [step]

/-- `Stop` returns only after the worker has left `Run`: while the owner waits and the worker does not return, the owner
goes on waiting, whatever else happens. -/
theorem C62_stop_waits {as : List Act} {σ σ' : St} (hj : σ.owner = .joining) (hr : σ.thread = some .running)
    (hw : .workerReturns ∉ as) (he : exec σ as = some σ') : σ'.owner = .joining ∧ σ'.thread = some .running := by
  induction as generalizing σ with
  | nil => cases he; exact ⟨hj, hr⟩
  | cons a as ih =>
    rw [exec, Option.bind_eq_some_iff] at he
    obtain ⟨σ1, h1, h2⟩ := he
    obtain ⟨sr, th, ow, en, st, jo⟩ := σ
    simp only at hj hr
    subst hj hr
    refine ih ?_ ?_ (fun h => hw (List.mem_cons_of_mem _ h)) h2 <;>
    · cases en with
      | some e => simp [step] at h1
      | none =>
        cases a with
        | workerReturns => exact absurd (List.mem_cons_self ..) hw
        | start => simp [step] at h1
        | stop => simp [step] at h1
        | join => simp [step] at h1
        | destroy => simp [step] at h1
        | pluginClears => simp [step] at h1; subst h1; rfl

/-- A second `Start` with no returned `Stop` in between terminates the process, even if the first worker has returned:
for every history, disciplined or not. -/
theorem C62_second_start_terminates {before between : List Act} {σ : St} (hj : .join ∉ between)
    (he : exec initial (before ++ .start :: between ++ [.start]) = some σ) : σ.ended = some .terminated := by
  have split : ∀ (as bs : List Act) (σ σ' : St), exec σ (as ++ bs) = some σ' → ∃ σ1, exec σ as = some σ1 ∧ exec σ1 bs = some σ' := by
    intro as
    induction as with
    | nil => intro bs σ σ' h; exact ⟨σ, rfl, h⟩
    | cons a as ih =>
      intro bs σ σ' h
      rw [List.cons_append, exec, Option.bind_eq_some_iff] at h
      obtain ⟨σ1, h1, h2⟩ := h
      obtain ⟨σ2, h3, h4⟩ := ih bs σ1 σ' h2
      exact ⟨σ2, by rw [exec, h1]; exact h3, h4⟩
  obtain ⟨σ2, h1, h2⟩ := split _ _ _ _ he
  obtain ⟨σ1, _, h3⟩ := split _ _ _ _ h1
  rw [exec, Option.bind_eq_some_iff] at h3
  obtain ⟨σ3, h3, h4⟩ := h3
  have ht : σ3.thread ≠ none := by
    unfold step at h3
    split at h3
    · cases h3
    · split at h3 <;> simp_all
      split at h3 <;> simp at h3 <;> subst h3 <;> simp
  have keep : ∀ (as : List Act) (σ σ' : St), .join ∉ as → σ.thread ≠ none → exec σ as = some σ' → σ'.thread ≠ none := by
    intro as
    induction as with
    | nil => intro σ σ' _ h h'; cases h'; exact h
    | cons a as ih =>
      intro σ σ' hj h h'
      rw [exec, Option.bind_eq_some_iff] at h'
      obtain ⟨σ1, h1, h2⟩ := h'
      refine ih σ1 σ' (fun h => hj (List.mem_cons_of_mem _ h)) ?_ h2
      obtain ⟨sr, th, ow, en, st, jo⟩ := σ
      simp only at h
      cases en with
      | some e => simp [step] at h1
      | none =>
        cases th with
        | none => exact absurd rfl h
        | some t =>
          cases a <;> cases ow <;> simp [step] at h1
          case join.joining => exact absurd (List.mem_cons_self ..) hj
          case join.destroying => exact absurd (List.mem_cons_self ..) hj
          all_goals first
            | (subst h1; simp; done)
            | (obtain ⟨_, h1⟩ := h1; subst h1; simp; done)
            | (split at h1 <;> (try split at h1) <;> simp [finish] at h1 <;> subst h1 <;> simp)
  have ht2 := keep _ _ _ hj ht h4
  rw [exec, Option.bind_eq_some_iff] at h2
  obtain ⟨σ4, h5, h6⟩ := h2
  cases h6
  obtain ⟨sr, th, ow, en, st, jo⟩ := σ2
  simp only at ht2
  cases en with
  | some e => simp [step] at h5
  | none =>
    cases th with
    | none => exact absurd rfl ht2
    | some t =>
      cases ow <;> simp [step] at h5
      subst h5; rfl

/-- If a plugin clears the flag itself, `Stop` does not join its thread: it returns at once and destroying the instance
terminates the process, although its worker has returned. -/
theorem C62_self_cleared_terminates {σ : St} (h : σ.shouldRun = false) (ht : σ.thread = some .returned)
    (ho : σ.owner = .idle) (he : σ.ended = none) :
    step σ .stop = some σ ∧ step σ .destroy = some { σ with ended := some .terminated } := by
  obtain ⟨sr, th, ow, en, st, jo⟩ := σ
  simp only at h ht ho he
  subst h ht ho he
  simp [step, finish]

/-- Destroying an instance whose worker is inside `Run` is undefined (the destructor's own `Stop` comes too late). -/
theorem C62_destroy_while_running {σ : St} (ht : σ.thread = some .running) (ho : σ.owner = .idle) (he : σ.ended = none) :
    ∃ σ', step σ .destroy = some σ' ∧ σ'.ended = some .undefined := by
  refine ⟨{ σ with ended := some .undefined }, ?_, rfl⟩
  obtain ⟨sr, th, ow, en, st, jo⟩ := σ
  simp only at ht ho he
  subst ht ho he
  simp [step]

/-! ## The hypotheses are met -/

example : Disciplined false [.start, .stop, .workerReturns, .join, .start, .workerReturns, .stop, .join, .stop, .destroy] ∧
    (exec initial [.start, .stop, .workerReturns, .join, .start, .workerReturns, .stop, .join, .stop, .destroy]).map
      (fun σ => (σ.ended, σ.started, σ.joined)) = some (some .destroyed, 2, 2) := by
  refine ⟨by simp [Disciplined], by decide⟩

example : ∃ σ, exec initial [.start, .stop, .workerReturns, .join] = some σ ∧
    open_ false [.start, .stop, .workerReturns, .join] = false ∧ σ.owner = .idle :=
  ⟨⟨false, none, .idle, none, 1, 1⟩, by decide, rfl, rfl⟩

example : exec initial [.start, .stop] = some ⟨false, some .running, .joining, none, 1, 0⟩ := by decide

example : exec initial ([] ++ .start :: [.workerReturns] ++ [.start]) = some ⟨true, some .running, .idle, some .terminated, 2, 0⟩ ∧
    .join ∉ [Act.workerReturns] := by decide

example : exec initial [.start, .pluginClears, .workerReturns] = some ⟨false, some .returned, .idle, none, 1, 0⟩ := by decide

example : exec initial [.start] = some ⟨true, some .running, .idle, none, 1, 0⟩ := by decide

end LP.Worker
