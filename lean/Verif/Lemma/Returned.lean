import Verif.Spec.Returned
import Verif.Lemma.BusMore
/-!
# Where the bus thread is while a callback runs
-/
namespace LP.Bus

/-- Only the innermost activation of `Distribute` can hold a subscribers mutex, and while a callback runs it does: that of
the subscriber's bus. -/
def Called (σ : St) : Prop :=
  ∀ m st cb batch, σ.phase = .visit m st cb batch → (∀ f ∈ st.tail, ∃ c r, f = .kids c r) ∧
    (cb = true → ∃ d b rest st', σ.log.getLast? = some d ∧ st = .subs b rest :: st' ∧ d.sub < σ.w.ns ∧ (σ.w.sub d.sub).home = b)

theorem called_initial {name : Str} {σ : St} (h : initial name = some σ) : Called σ := by
  unfold initial at h
  cases hr : newRoot name with
  | error e => simp [hr] at h
  | ok w => simp [hr] at h; subst h; exact fun _ _ _ _ h => by cases h

theorem dstep_tail {w : World} {m : BMsg} {i : Nat} {st : List Frame} (h : ∀ f ∈ st.tail, ∃ c r, f = .kids c r) :
    ∀ f ∈ (dstep w m i st).1.tail, ∃ c r, f = .kids c r := by
  have sub : ∀ {l : List Frame}, (∀ f ∈ l, ∃ c r, f = .kids c r) → ∀ f ∈ l.tail, ∃ c r, f = .kids c r :=
    fun h f hf => h f (List.mem_of_mem_tail hf)
  match st, h with
  | [], h => exact h
  | .want b :: st, h => exact h
  | .subs b [] :: st, h => exact h
  | .subs b (s :: rest) :: st, h => exact h
  | .gap b :: st, h => exact h
  | .kids b [] :: st, h => exact sub h
  | .kids b (c :: rest) :: st, h =>
    simp only [dstep]
    split
    · intro f hf
      rcases List.mem_cons.1 hf with rfl | hf
      · exact ⟨_, _, rfl⟩
      · exact h f hf
    · exact h

theorem called_step {σ σ' : St} {a : Act} (hi : Inv σ) (h : Called σ) (hs : step σ a = some σ') : Called σ' := by
  by_cases hr : ∃ c, a = .run c
  · obtain ⟨c, rfl⟩ := hr
    simp only [step] at hs
    unfold rstep at hs
    split at hs
    case h_11 =>
      rename_i m f st batch hp
      have ht := (h _ _ _ _ hp).1
      cases hd : dstep σ.w m (σ.fates.length - 1) (f :: st) with
      | mk st' od =>
        have ht' := dstep_tail (w := σ.w) (m := m) (i := σ.fates.length - 1) ht
        rw [hd] at ht'
        cases od with
        | none =>
          simp only [hd] at hs; cases hs
          intro m' st'' cb' batch' hv
          cases hv
          exact ⟨ht', fun h => (by cases h)⟩
        | some d =>
          have hok := hi.stack.1
          rw [hp] at hok
          match f, hd, hok, hp with
          | .subs b (s :: rest), hd, hok, hp =>
            simp only [dstep, Prod.mk.injEq] at hd
            have hsub : d.sub = s := by
              have h2 := hd.2
              simp only [offer] at h2
              split at h2 <;> simp at h2
              · obtain ⟨a, -, h2⟩ := h2
                rw [← h2]
            have hm := (hok (.subs b (s :: rest)) (by simp [Phase.stack])).2.2 s (by simp)
            have hh := hi.wok.subsHome b s hm
            simp only [dstep, hd.2] at hs
            cases hs
            intro m' st'' cb' batch' hv
            cases hv
            refine ⟨ht, fun _ => ⟨d, b, rest, st, by simp, rfl, ?_, ?_⟩⟩
            · rw [hsub]; exact hh.1
            · rw [hsub]; exact hh.2
          | .want b, hd, _, _ => simp [dstep] at hd
          | .subs b [], hd, _, _ => simp [dstep] at hd
          | .gap b, hd, _, _ => simp [dstep] at hd
          | .kids b [], hd, _, _ => simp [dstep] at hd
          | .kids b (c :: rest), hd, _, _ => simp only [dstep] at hd; split at hd <;> simp at hd
    case h_9 =>
      split at hs <;> cases hs
      · intro m' st'' cb' batch' hv
        cases hv
        exact ⟨fun f hf => (by cases hf), fun h => (by cases h)⟩
      · exact fun _ _ _ _ hv => (by cases hv)
    case h_12 =>
      rename_i hp
      cases hs
      intro m' st'' cb' batch' hv
      cases hv
      exact ⟨(h _ _ _ _ hp).1, fun h => (by cases h)⟩
    all_goals first
      | (cases hs; intro _ _ _ _ hv; exfalso; revert hv; simp; done)
      | (cases hs; intro _ _ _ _ hv; exfalso; revert hv; simp only; split <;> simp; done)
      | cases hs
  · have hx := step_external hi.wok (fun c e => hr ⟨c, e⟩) hs
    intro m st cb batch hv
    have hv' : σ.phase = .visit m st cb batch := by
      rcases hx.phase with h1 | ⟨_, h1⟩ | ⟨_, h1⟩
      · rw [h1] at hv; exact hv
      · rw [h1] at hv; cases hv
      · rw [h1] at hv; cases hv
    obtain ⟨k1, k2⟩ := h _ _ _ _ hv'
    refine ⟨k1, fun hc => ?_⟩
    obtain ⟨d, b, rest, st', g1, g2, g3, g4⟩ := k2 hc
    exact ⟨d, b, rest, st', by rw [hx.log]; exact g1, g2, Nat.lt_of_lt_of_le g3 hx.grows.2.1, (hx.grows.2.2.2 _ g3).1.trans g4⟩

theorem Reachable.called {σ : St} (h : Reachable σ) : Called σ := by
  obtain ⟨name, σ₀, as, h0, he⟩ := h
  exact exec_induct (P := Called) (Q := fun _ => True) (fun σ a σ' hi _ hp hs => called_step hi hp hs) (inv_initial h0)
    (fun _ _ => trivial) (called_initial h0) he

/-- What it means for the state. -/
theorem InCallback.frame {σ : St} {s : Nat} (h : Called σ) (hc : InCallback σ s) : ∃ m rest st batch,
    σ.phase = .visit m (.subs (σ.w.sub s).home rest :: st) true batch ∧ (∀ f ∈ st, ∃ c r, f = .kids c r) ∧ s < σ.w.ns := by
  obtain ⟨⟨m, st, batch, hp⟩, hl⟩ := hc
  obtain ⟨k1, k2⟩ := h _ _ _ _ hp
  obtain ⟨d, b, rest, st', g1, g2, g3, g4⟩ := k2 rfl
  rw [g1] at hl
  simp only [Option.map_some, Option.some.injEq] at hl
  subst hl
  subst g2
  subst g4
  exact ⟨m, rest, st', batch, hp, k1, g3⟩

/-- A subscriber that is in no list and whose callback is not running stays so. -/
theorem gone_quiet {s : Nat} {σ σ' : St} {a : Act} (hi : Inv σ) (hg : Gone s σ) (hq : ¬ InCallback σ s) (hs : step σ a = some σ') :
    ¬ InCallback σ' s := by
  rintro ⟨⟨m, st, batch, hp⟩, hl⟩
  by_cases hr : ∃ c, a = .run c
  · obtain ⟨c, rfl⟩ := hr
    rcases step_log hi hs with hlog | ⟨m', st', batch', d, hph, hlog, ht, -⟩
    · -- nothing was invoked: no callback is running now
      simp only [step] at hs
      unfold rstep at hs
      split at hs
      case h_11 =>
        rename_i m f st batch hp'
        cases hd : dstep σ.w m (σ.fates.length - 1) (f :: st) with
        | mk st' od =>
          cases od with
          | none => simp only [hd] at hs; cases hs; cases hp
          | some d => simp only [hd] at hs; cases hs; simp at hlog
      case h_9 => split at hs <;> cases hs <;> cases hp
      case h_12 => cases hs; cases hp
      all_goals first
        | (cases hs; revert hp; simp; done)
        | (cases hs; revert hp; simp only; split <;> simp; done)
        | cases hs
    · rw [hlog] at hl
      simp only [List.getLast?_append, List.getLast?_singleton, Option.some_or, Option.map_some, Option.some.injEq] at hl
      subst hl
      have hok := hi.stack.1
      rw [hph] at hok
      obtain ⟨b, hb⟩ := touch_mem hok ht
      exact hg.2 b hb
  · have hx := step_external hi.wok (fun c e => hr ⟨c, e⟩) hs
    refine hq ⟨⟨m, st, batch, ?_⟩, by rw [← hx.log]; exact hl⟩
    rcases hx.phase with h1 | ⟨_, h1⟩ | ⟨_, h1⟩
    · rw [← h1]; exact hp
    · rw [h1] at hp; cases hp
    · rw [h1] at hp; cases hp

theorem gone_quiet_exec {s : Nat} {σ σ' : St} {as : List Act} (hi : Inv σ) (hg : Gone s σ) (hq : ¬ InCallback σ s)
    (he : exec σ as = some σ') : ¬ InCallback σ' s :=
  (exec_induct (P := fun τ => Gone s τ ∧ ¬ InCallback τ s) (Q := fun _ => True)
    (fun _ _ _ hi' _ hp hs => ⟨gone_step hi' hp.1 hs, gone_quiet hi' hp.1 hp.2 hs⟩) hi (fun _ _ => trivial) ⟨hg, hq⟩ he).2

/-- Left alone the bus thread goes through the rest of the list and gives the mutex back. -/
theorem list_ends (w : World) (m : BMsg) (b : Nat) (st : List Frame) (batch : List BMsg) : ∀ (rest : List Nat) (cb : Bool) (σ : St),
    σ.w = w → σ.phase = .visit m (.subs b rest :: st) cb batch →
    ∃ n σ', exec σ (List.replicate n (.run .go)) = some σ' ∧ σ'.w = w ∧ σ'.phase = .visit m (.gap b :: st) false batch := by
  intro rest
  induction rest with
  | nil =>
    intro cb σ hw hp
    cases cb with
    | false =>
      exact ⟨1, { σ with phase := .visit m (.gap b :: st) false batch }, by simp [List.replicate, exec, step, rstep, hp, dstep], hw, rfl⟩
    | true =>
      exact ⟨2, { σ with phase := .visit m (.gap b :: st) false batch }, by simp [List.replicate, exec, step, rstep, hp, dstep], hw, rfl⟩
  | cons s rest ih =>
    intro cb σ hw hp
    have one : ∀ τ : St, τ.w = w → τ.phase = .visit m (.subs b (s :: rest) :: st) false batch →
        ∃ n σ', exec τ (List.replicate n (.run .go)) = some σ' ∧ σ'.w = w ∧ σ'.phase = .visit m (.gap b :: st) false batch := by
      intro τ hw hp
      cases hd : (dstep τ.w m (τ.fates.length - 1) (.subs b (s :: rest) :: st)).2 with
      | none =>
        obtain ⟨n, σ', k1, k2, k3⟩ := ih false { τ with phase := .visit m (.subs b rest :: st) false batch } hw rfl
        refine ⟨n + 1, σ', ?_, k2, k3⟩
        simp only [dstep] at hd
        simp only [List.replicate_succ, exec, step, rstep, hp, dstep, hd]
        exact k1
      | some d =>
        obtain ⟨n, σ', k1, k2, k3⟩ := ih true { τ with phase := .visit m (.subs b rest :: st) true batch, log := τ.log ++ [d] } hw rfl
        refine ⟨n + 1, σ', ?_, k2, k3⟩
        simp only [dstep] at hd
        simp only [List.replicate_succ, exec, step, rstep, hp, dstep, hd]
        exact k1
    cases cb with
    | false => exact one σ hw hp
    | true =>
      obtain ⟨n, σ', k1, k2, k3⟩ := one { σ with phase := .visit m (.subs b (s :: rest) :: st) false batch } hw rfl
      refine ⟨n + 1, σ', ?_, k2, k3⟩
      simp only [List.replicate_succ, exec, step, rstep, hp]
      exact k1

end LP.Bus
