import Verif.Lemma.BusLive
import Verif.Lemma.BusCost
/-!
# Consequences of the invariants along executions
-/
namespace LP.Bus

theorem exec_append {σ : St} {as bs : List Act} : exec σ (as ++ bs) = (exec σ as).bind (fun τ => exec τ bs) := by
  induction as generalizing σ with
  | nil => rfl
  | cons a as ih =>
    simp only [List.cons_append, exec]
    cases step σ a with
    | none => rfl
    | some τ => exact ih

theorem Reachable.exec {σ σ' : St} {as : List Act} (h : Reachable σ) (he : exec σ as = some σ') : Reachable σ' := by
  obtain ⟨name, σ₀, bs, h0, hb⟩ := h
  exact ⟨name, σ₀, bs ++ as, h0, by rw [exec_append, hb]; exact he⟩

/-- Induction along an execution. -/
theorem exec_induct {P : St → Prop} {Q : Act → Prop} (hstep : ∀ σ a σ', Inv σ → Q a → P σ → step σ a = some σ' → P σ')
    {σ σ' : St} {as : List Act} (hi : Inv σ) (hq : ∀ a ∈ as, Q a) (hp : P σ) (he : exec σ as = some σ') : P σ' := by
  induction as generalizing σ with
  | nil => simp [exec] at he; subst he; exact hp
  | cons a as ih =>
    simp only [exec] at he
    cases hs : step σ a with
    | none => simp [hs] at he
    | some τ =>
      simp only [hs] at he
      exact ih (inv_step hi hs) (fun b hb => hq b (by simp [hb])) (hstep σ a τ hi (hq a (by simp)) hp hs) he

/-- The log only grows. -/
theorem step_log {σ σ' : St} {a : Act} (hi : Inv σ) (h : step σ a = some σ') :
    σ'.log = σ.log ∨ ∃ m st batch d, σ.phase = .visit m st false batch ∧ σ'.log = σ.log ++ [d] ∧
      touch st = some d.sub ∧ d.idx = σ.fates.length - 1 ∧ d.msg = m := by
  by_cases hr : ∃ c, a = .run c
  · obtain ⟨c, rfl⟩ := hr
    simp only [step] at h
    unfold rstep at h
    split at h
    case h_11 =>
      rename_i m f st batch hp
      cases hd : dstep σ.w m (σ.fates.length - 1) (f :: st) with
      | mk st' od =>
        cases od with
        | none => simp only [hd] at h; cases h; exact .inl rfl
        | some d =>
          simp only [hd] at h
          cases h
          have := dstep_delivery (w := σ.w) (m := m) (i := σ.fates.length - 1) (st := f :: st) (d := d) (by rw [hd])
          exact .inr ⟨_, _, _, d, hp, rfl, this.1, this.2.1, this.2.2.1⟩
    case h_9 => split at h <;> cases h <;> exact .inl rfl
    all_goals first
      | (cases h; exact .inl rfl)
      | cases h
  · exact .inl (step_external hi.wok (fun c e => hr ⟨c, e⟩) h).log

theorem exec_log {σ σ' : St} {as : List Act} (hi : Inv σ) (he : exec σ as = some σ') : σ.log <+: σ'.log := by
  refine exec_induct (P := fun τ => σ.log <+: τ.log) (Q := fun _ => True) ?_ hi (fun _ _ => trivial)
    (List.prefix_refl _) he
  intro τ a τ' hi' _ hp hs
  rcases step_log hi' hs with h | ⟨_, _, _, d, _, h, _⟩
  · rw [h]; exact hp
  · rw [h]; exact hp.trans (List.prefix_append _ _)

/-- A subscriber on no list. -/
def Gone (s : Nat) (σ : St) : Prop := s < σ.w.ns ∧ ∀ b, s ∉ (σ.w.bus b).subs

theorem gone_step {s : Nat} {σ σ' : St} {a : Act} (hi : Inv σ) (h : Gone s σ) (hs : step σ a = some σ') : Gone s σ' := by
  by_cases hr : ∃ c, a = .run c
  · obtain ⟨c, rfl⟩ := hr
    have hw := run_world hs
    unfold Gone
    rw [hw.1, hw.2.2.2.1]; exact h
  · have hx := step_external hi.wok (fun c e => hr ⟨c, e⟩) hs
    exact ⟨Nat.lt_of_lt_of_le h.1 hx.grows.2.1, fun b hm => h.2 b (hx.subsOld b s h.1 hm)⟩

theorem gone_silent {s : Nat} {σ σ' : St} {as : List Act} (hi : Inv σ) (h : Gone s σ) (he : exec σ as = some σ') :
    σ'.log.filter (fun d => d.sub = s) = σ.log.filter (fun d => d.sub = s) := by
  have := exec_induct (P := fun τ => Gone s τ ∧ τ.log.filter (fun d => d.sub = s) = σ.log.filter (fun d => d.sub = s))
    (Q := fun _ => True) ?_ hi (fun _ _ => trivial) ⟨h, rfl⟩ he
  · exact this.2
  · intro τ a τ' hi' _ hp hs
    refine ⟨gone_step hi' hp.1 hs, ?_⟩
    rcases step_log hi' hs with hl | ⟨m, st, batch, d, hph, hl, ht, _⟩
    · rw [hl]; exact hp.2
    · rw [hl, List.filter_append, hp.2]
      have hst := hi'.stack.1
      rw [hph] at hst
      obtain ⟨b, hb⟩ := touch_mem hst ht
      have : d.sub ≠ s := fun e => hp.1.2 b (e ▸ hb)
      simp [this]

/-! ## Attachment -/

theorem run_bus {σ σ' : St} {c : Choice} (h : rstep c σ = some σ') : σ'.w.bus = σ.w.bus ∧ σ'.w.nb = σ.w.nb :=
  ⟨(run_world h).1, (run_world h).2.1⟩

/-- The buses below `b` are all detached. -/
def DetachedBelow (b : Nat) (σ : St) : Prop :=
  b < σ.w.nb ∧ ∀ c, Anc σ.w b c → (σ.w.bus c).attached = false

theorem detached_step {b : Nat} {σ σ' : St} {a : Act} (hi : Inv σ) (h : DetachedBelow b σ) (hs : step σ a = some σ') :
    DetachedBelow b σ' := by
  by_cases hr : ∃ c, a = .run c
  · obtain ⟨c, rfl⟩ := hr
    have hw := run_bus hs
    refine ⟨by rw [hw.2]; exact h.1, ?_⟩
    intro c hc
    rw [hw.1]
    exact h.2 c ((anc_congr (fun x y => by unfold Child; rw [hw.1]) b c).1 hc)
  · have hx := step_external hi.wok (fun c e => hr ⟨c, e⟩) hs
    refine ⟨Nat.lt_of_lt_of_le h.1 hx.grows.1, ?_⟩
    intro c hc
    by_cases hlt : c < σ.w.nb
    · have h1 := h.2 c ((hx.grows.2.2.1 b c hlt).1 hc)
      cases h2 : (σ'.w.bus c).attached with
      | false => rfl
      | true => rw [hx.attached c hlt h2] at h1; cases h1
    · have hcn : c < σ'.w.nb := hc.lt_nb hx.wok (Nat.lt_of_lt_of_le h.1 hx.grows.1)
      obtain ⟨b0, hb0, _, hat, ha⟩ := hx.fresh c (by omega) hcn
      rcases (ha b).1 hc with rfl | h1
      · exact absurd h.1 hlt
      · rw [h.2 b0 h1] at hat; cases hat

/-! ## Stopping -/

/-- The bus thread leaves the queue alone or takes all of it. -/
theorem queue_run {σ σ' : St} {c : Choice} (h : rstep c σ = some σ') :
    σ'.w.queue = σ.w.queue ∨ σ'.w.queue = [] := by
  unfold rstep at h
  split at h
  case h_11 =>
    rename_i m f st batch hp
    cases hd : dstep σ.w m (σ.fates.length - 1) (f :: st) with
    | mk st' od => cases od <;> simp only [hd] at h <;> cases h <;> exact .inl rfl
  case h_9 => split at h <;> cases h <;> exact .inl rfl
  all_goals first
    | (cases h; first | exact .inl rfl | exact .inr rfl)
    | cases h

theorem Inv.count {σ : St} (hi : Inv σ) :
    σ.fates.length + σ.phase.batch.length + σ.w.queue.length = σ.published.length := by
  have h := congrArg List.length hi.split
  rw [List.length_drop, List.length_append] at h
  have := hi.len; omega

/-- The root is stopped and the bus thread is not just about to take over the queue. -/
def Stopped (σ : St) : Prop := (σ.w.bus 0).running = false ∧ σ.phase ≠ .drain

theorem stopped_step {σ σ' : St} {a : Act} (hi : Inv σ) (ha : a ≠ .start) (h : (σ.w.bus 0).running = false)
    (hs : step σ a = some σ') : (σ'.w.bus 0).running = false := by
  by_cases hr : ∃ c, a = .run c
  · obtain ⟨c, rfl⟩ := hr
    rw [(run_bus hs).1]; exact h
  · cases hc : a.creates with
    | false =>
      have hr' : a.isRun = false := by
        cases a <;> first | rfl | exact absurd ⟨_, rfl⟩ hr
      have h0 := hi.wok.root
      obtain ⟨_, _, _, h4⟩ := step_shrinks hr' hc hs
      rcases h4 with h4 | h4 | h4
      · rw [h4]; exact h
      · subst h4
        simp only [step] at hs
        rw [if_pos h0] at hs
        cases hs
        simp [Bus.stop, World.setBus]
      · exact absurd h4 ha
    | true =>
      cases a with
      | createChild b name =>
        simp only [step] at hs
        split at hs <;> try contradiction
        rename_i hb
        cases hs
        rcases createChildBus_cases σ.w b name with he | ⟨_, _, _, he⟩
        · simp only [he]; exact h
        · have := hi.wok.root
          simp only [he, outcome, World.setBus]
          split
          · subst_vars; exact h
          · rw [if_neg (by omega)]; exact h
      | createSub b t cb =>
        simp only [step] at hs
        split at hs <;> try contradiction
        cases hs
        simp only [createSubscriber, outcome, World.setBus, World.setSub]
        split
        · subst_vars; exact h
        · exact h
      | _ => cases hc

theorem stopped_phase {σ σ' : St} {a : Act} (hi : Inv σ) (ha : a ≠ .start) (h : Stopped σ) (hs : step σ a = some σ') :
    Stopped σ' ∧ σ.w.queue <+: σ'.w.queue ∧
      σ'.fates.length + σ'.phase.batch.length ≤ σ.fates.length + σ.phase.batch.length := by
  suffices h2 : σ'.phase ≠ .drain ∧ σ.w.queue <+: σ'.w.queue by
    refine ⟨⟨stopped_step hi ha h.1 hs, h2.1⟩, h2.2, ?_⟩
    have h3 := hi.count
    have h4 := (inv_step hi hs).count
    have h5 := h2.2.length_le
    by_cases hr : ∃ c, a = .run c
    · obtain ⟨c, rfl⟩ := hr
      rw [(run_world hs).2.2.2.2.2.1] at h4; omega
    · obtain ⟨ms, hp, hq⟩ := (step_external hi.wok (fun c e => hr ⟨c, e⟩) hs).queue
      have e1 := congrArg List.length hp
      have e2 := congrArg List.length hq
      rw [List.length_append] at e1 e2; omega
  refine ⟨?_, ?_⟩
  · by_cases hr : ∃ c, a = .run c
    · obtain ⟨c, rfl⟩ := hr
      rcases run_cases hi hs with ⟨m, st, cb, b, h1, h2⟩ | ⟨h1, h2, h3, h4⟩ | ⟨h1, h2, h3⟩ | ⟨h1, h2, h3⟩ | ⟨h1, h3, h2⟩ |
        ⟨h1, h2, h3⟩ | ⟨h1, h2, h3⟩ | ⟨h1, h2, h3⟩ | ⟨h1, h2, h3⟩
      · rw [h2]; simp
      · rcases h2 with ⟨b, h2⟩ | ⟨m, st, cb, b, h2⟩ <;> rw [h2] <;> simp
      · rw [h2]; simp
      · rw [h2]; split <;> simp
      · rw [h2]; split <;> simp
      · rw [h2]; simp
      · rcases h2 with h2 | h2 <;> rw [h2] <;> simp
      · rw [h2, h.1]; simp
      · exact absurd h1 h.2
    · have hx := step_external hi.wok (fun c e => hr ⟨c, e⟩) hs
      rcases hx.phase with h1 | ⟨_, h1⟩ | ⟨_, h1⟩
      · rw [h1]; exact h.2
      · rw [h1]; simp
      · rw [h1]; simp
  · by_cases hr : ∃ c, a = .run c
    · obtain ⟨c, rfl⟩ := hr
      rcases run_cases hi hs with ⟨m, st, cb, b, h1, h2⟩ | ⟨h1, h2, h3, h4⟩ | ⟨h1, h2, h3⟩ | ⟨h1, h2, h3⟩ | ⟨h1, h3, h2⟩ |
        ⟨h1, h2, h3⟩ | ⟨h1, h2, h3⟩ | ⟨h1, h2, h3⟩ | ⟨h1, h2, h3⟩
      · simp only [step] at hs
        unfold rstep at hs
        rw [h1] at hs
        split at hs <;> simp_all
        · rw [← hs]; exact List.prefix_refl _
        · rename_i hd _
          split at hs <;> simp at hs <;> rw [← hs] <;> exact List.prefix_refl _
        · rw [← hs]; exact List.prefix_refl _
        · rw [← hs]; exact List.prefix_refl _
      · rw [h4]; exact List.prefix_refl _
      · rw [h3]; exact List.prefix_refl _
      · rw [h3]; exact List.prefix_refl _
      · rw [h3]; exact List.prefix_refl _
      · rw [h3]; exact List.prefix_refl _
      · rw [h3]; exact List.prefix_refl _
      · rw [h3]; exact List.prefix_refl _
      · exact absurd h1 h.2
    · obtain ⟨ms, _, hq⟩ := (step_external hi.wok (fun c e => hr ⟨c, e⟩) hs).queue
      rw [hq]; exact List.prefix_append _ _

theorem stopped_exec {σ σ' : St} {as : List Act} (hi : Inv σ) (ha : .start ∉ as) (h : Stopped σ)
    (he : exec σ as = some σ') : Stopped σ' ∧ σ.w.queue <+: σ'.w.queue ∧
      σ'.fates.length + σ'.phase.batch.length ≤ σ.fates.length + σ.phase.batch.length := by
  refine exec_induct (P := fun τ => Stopped τ ∧ σ.w.queue <+: τ.w.queue ∧
      τ.fates.length + τ.phase.batch.length ≤ σ.fates.length + σ.phase.batch.length) (Q := fun a => a ≠ .start) ?_ hi
    (fun a hm e => ha (e ▸ hm)) ⟨h, List.prefix_refl _, Nat.le_refl _⟩ he
  intro τ a τ' hi' hq hp hs
  have := stopped_phase hi' hq hp.1 hs
  exact ⟨this.1, hp.2.1.trans this.2.1, Nat.le_trans this.2.2 hp.2.2⟩

/-- While the root is stopped only the message in distribution is delivered. -/
def OnlyCurrent (n k : Nat) (τ : St) : Prop :=
  (τ.w.bus 0).running = false ∧ n ≤ τ.fates.length ∧
  (∀ m st cb b, τ.phase = .visit m st cb b → τ.fates.length = n) ∧
  ∀ d ∈ τ.log.drop k, d.idx + 1 = n

theorem onlyCurrent_step {n k : Nat} {σ σ' : St} {a : Act} (hi : Inv σ) (ha : a ≠ .start) (hk : k ≤ σ.log.length)
    (h : OnlyCurrent n k σ) (hs : step σ a = some σ') : OnlyCurrent n k σ' ∧ k ≤ σ'.log.length := by
  have hlog : ∀ d ∈ σ'.log.drop k, d.idx + 1 = n := by
    rcases step_log hi hs with hl | ⟨m, st, batch, d, hph, hl, ht, hx, _⟩
    · rw [hl]; exact h.2.2.2
    · rw [hl, List.drop_append_of_le_length hk]
      intro e he
      rcases List.mem_append.1 he with he | he
      · exact h.2.2.2 e he
      · simp only [List.mem_singleton] at he
        subst he
        have h1 := h.2.2.1 _ _ _ _ hph
        have h2 := (hi.cur _ _ _ _ hph).1
        omega
  have hk' : k ≤ σ'.log.length := by
    rcases step_log hi hs with hl | ⟨m, st, batch, d, hph, hl, ht, hx, _⟩
    · rw [hl]; exact hk
    · rw [hl, List.length_append]; omega
  refine ⟨⟨stopped_step hi ha h.1 hs, ?_, ?_, hlog⟩, hk'⟩
  · by_cases hr : ∃ c, a = .run c
    · obtain ⟨c, rfl⟩ := hr
      have : σ.fates.length ≤ σ'.fates.length := by
        simp only [step] at hs
        unfold rstep at hs
        split at hs
        case h_11 =>
          rename_i m f st batch hp
          cases hd : dstep σ.w m (σ.fates.length - 1) (f :: st) with
          | mk st' od => cases od <;> simp only [hd] at hs <;> cases hs <;> exact Nat.le_refl _
        case h_9 => split at hs <;> cases hs <;> simp
        all_goals first
          | (cases hs; first | exact Nat.le_refl _ | (simp; done))
          | cases hs
      exact Nat.le_trans h.2.1 this
    · rw [(step_external hi.wok (fun c e => hr ⟨c, e⟩) hs).fates]; exact h.2.1
  · by_cases hr : ∃ c, a = .run c
    · obtain ⟨c, rfl⟩ := hr
      intro m st cb b hv
      simp only [step] at hs
      unfold rstep at hs
      split at hs
      case h_11 =>
        rename_i m f st batch hp
        have := h.2.2.1 _ _ _ _ hp
        cases hd : dstep σ.w m (σ.fates.length - 1) (f :: st) with
        | mk st' od => cases od <;> simp only [hd] at hs <;> cases hs <;> exact this
      case h_9 =>
        split at hs
        · rename_i hrun; rw [h.1] at hrun; cases hrun
        · cases hs; cases hv
      case h_12 =>
        rename_i hp
        cases hs
        exact h.2.2.1 _ _ _ _ hp
      all_goals first
        | (cases hs; first | (cases hv; done) | (exfalso; revert hv; simp only; split <;> simp; done))
        | cases hs
    · have hx := step_external hi.wok (fun c e => hr ⟨c, e⟩) hs
      intro m st cb b hv
      rw [hx.fates]
      rcases hx.phase with h1 | ⟨_, h1⟩ | ⟨_, h1⟩
      · rw [h1] at hv; exact h.2.2.1 _ _ _ _ hv
      · rw [h1] at hv; cases hv
      · rw [h1] at hv; cases hv

theorem onlyCurrent_exec {σ σ' : St} {as : List Act} (hi : Inv σ) (ha : .start ∉ as)
    (h : (σ.w.bus 0).running = false) (he : exec σ as = some σ') :
    ∀ d ∈ σ'.log.drop σ.log.length, d.idx + 1 = σ.fates.length := by
  have := exec_induct (P := fun τ => OnlyCurrent σ.fates.length σ.log.length τ ∧ σ.log.length ≤ τ.log.length)
    (Q := fun a => a ≠ .start) ?_ hi (fun a hm e => ha (e ▸ hm)) ⟨⟨h, Nat.le_refl _, fun _ _ _ _ _ => rfl, by simp⟩, Nat.le_refl _⟩ he
  · exact this.1.2.2.2
  · intro τ a τ' hi' hq hp hs
    exact onlyCurrent_step hi' hq hp.2 hp.1 hs

/-- Number of steps of the bus thread. -/
def runs (as : List Act) : Nat := as.countP Act.isRun
/-- Number of messages queued. -/
def pushes (as : List Act) : Nat := as.countP Act.isPush

theorem run_unit {σ σ' : St} {c : Choice} (h : rstep c σ = some σ') : unit σ'.w = unit σ.w := by
  have hw := run_world h
  unfold unit cost; rw [hw.2.1]
  have : ∀ n b, costF σ'.w n b = costF σ.w n b := by
    intro n; induction n with
    | zero => intro b; rfl
    | succ n ih => intro b; rw [costF, costF, hw.1]; simp [ih]
  rw [this]

theorem exit_bound {σ σ' : St} {as : List Act} (hi : Inv σ) (h : (σ.w.bus 0).running = false)
    (ha : ∀ a ∈ as, a ≠ .start ∧ a.creates = false) (he : exec σ as = some σ') :
    runs as + toExit σ' ≤ toExit σ + unit σ.w * pushes as := by
  induction as generalizing σ with
  | nil => simp [exec] at he; subst he; simp [runs, pushes]
  | cons a as ih =>
    simp only [exec] at he
    cases hs : step σ a with
    | none => simp [hs] at he
    | some τ =>
      simp only [hs] at he
      have h0 := ha a (by simp)
      have := ih (inv_step hi hs) (stopped_step hi h0.1 h hs) (fun b hb => ha b (by simp [hb])) he
      cases hr : a.isRun with
      | true =>
        cases a with
        | run c =>
          have h1 := toExit_run hi h hs
          rw [run_unit hs] at this
          simp only [runs, pushes, List.countP_cons, Act.isRun, Act.isPush] at this ⊢
          simp; omega
        | _ => cases hr
      | false =>
        have h1 := toExit_external hr h0.2 h0.1 hs
        have h2 := unit_shrinks (step_shrinks hr h0.2 hs).1
        have h3 := Nat.mul_le_mul_right (pushes as) h2
        have hm : unit σ.w * (pushes as + 1) = unit σ.w * pushes as + unit σ.w := Nat.mul_succ _ _
        simp only [runs, pushes, List.countP_cons, hr] at this hm h3 ⊢
        cases hpu : a.isPush <;> simp [hpu] at h1 ⊢ <;> omega

/-- Driving the bus thread alone. -/
theorem exit_reached {σ : St} (hi : Inv σ) (h : (σ.w.bus 0).running = false) :
    ∃ n σ', exec σ (List.replicate n (.run .go)) = some σ' ∧ σ'.phase = .off := by
  generalize hN : toExit σ = N
  induction N using Nat.strongRecOn generalizing σ with
  | _ N ih =>
    by_cases hoff : σ.phase = .off
    · exact ⟨0, σ, rfl, hoff⟩
    · obtain ⟨τ, hτ⟩ := run_enabled σ hoff
      have hlt := toExit_run hi h hτ
      obtain ⟨n, σ', he, hp⟩ := ih (toExit τ) (by omega) (inv_run hi hτ) (by rw [(run_bus hτ).1]; exact h) rfl
      exact ⟨n + 1, σ', by simp only [List.replicate_succ, exec, step, hτ]; exact he, hp⟩

/-! ## Taking over the queue -/

theorem drain_bound {σ σ' : St} {as : List Act} (hi : Inv σ) (P : Nat) (hP : P ≤ σ.published.length)
    (h : (σ.w.bus 0).running = true) (hoff : σ.phase ≠ .off)
    (ha : ∀ a ∈ as, a ≠ .stop 0 ∧ a ≠ .run .throwing ∧ a.creates = false) (he : exec σ as = some σ') :
    P ≤ σ'.fates.length + σ'.phase.batch.length ∨ runs as + toDrain σ' ≤ toDrain σ := by
  induction as generalizing σ with
  | nil => simp [exec] at he; subst he; right; simp [runs]
  | cons a as ih =>
    simp only [exec] at he
    cases hs : step σ a with
    | none => simp [hs] at he
    | some τ =>
      simp only [hs] at he
      have h0 := ha a (by simp)
      have hi' := inv_step hi hs
      -- once taken, it stays so
      have keep : P ≤ τ.fates.length + τ.phase.batch.length → P ≤ σ'.fates.length + σ'.phase.batch.length := by
        intro hk
        refine exec_induct (P := fun τ => P ≤ τ.fates.length + τ.phase.batch.length) (Q := fun _ => True) ?_ hi'
          (fun _ _ => trivial) hk he
        intro ρ b ρ' hr _ hp hb
        by_cases hrun : ∃ c, b = .run c
        · obtain ⟨c, rfl⟩ := hrun
          have h1 := hr.count
          have h2 := (inv_step hr hb).count
          rw [(run_world hb).2.2.2.2.2.1] at h2
          have h3 := queue_run hb
          rcases h3 with h3 | h3
          · rw [h3] at h2; omega
          · rw [h3] at h2; simp at h2; omega
        · have hx := step_external hr.wok (fun c e => hrun ⟨c, e⟩) hb
          rw [hx.fates, hx.batch]; exact hp
      have hpub : P ≤ τ.published.length := by
        by_cases hrun : ∃ c, a = .run c
        · obtain ⟨c, rfl⟩ := hrun
          rw [(run_world hs).2.2.2.2.2.1]; exact hP
        · obtain ⟨ms, hp, _⟩ := (step_external hi.wok (fun c e => hrun ⟨c, e⟩) hs).queue
          rw [hp, List.length_append]; omega
      by_cases hq : σ.w.queue = []
      · left
        apply keep
        have h1 := hi.count
        rw [hq] at h1
        by_cases hrun : ∃ c, a = .run c
        · obtain ⟨c, rfl⟩ := hrun
          have h2 := hi'.count
          rw [(run_world hs).2.2.2.2.2.1] at h2
          have h3 : τ.w.queue = [] := by
            rcases queue_run hs with h3 | h3
            · rw [h3, hq]
            · exact h3
          rw [h3] at h2; simp at h1 h2; omega
        · have hx := step_external hi.wok (fun c e => hrun ⟨c, e⟩) hs
          rw [hx.fates, hx.batch]; simp at h1; omega
      · cases hr : a.isRun with
        | true =>
          cases a with
          | run c =>
            have hoff' : τ.phase ≠ .off := by
              intro hτ
              rcases run_cases hi hs with ⟨m, st, cb, b, h1, h2⟩ | ⟨h1, h2, h3, h4⟩ | ⟨h1, h2, h3⟩ | ⟨h1, h2, h3⟩ |
                ⟨h1, h3, h2⟩ | ⟨h1, h2, h3⟩ | ⟨h1, h2, h3⟩ | ⟨h1, h2, h3⟩ | ⟨h1, h2, h3⟩
              · have : c = .throwing := by
                  simp only [step] at hs
                  cases c with
                  | throwing => rfl
                  | timeout => unfold rstep at hs; rw [h1] at hs; simp at hs
                  | go =>
                    unfold rstep at hs; rw [h1] at hs
                    cases cb with
                    | true => simp at hs; subst hs; cases hτ
                    | false =>
                      cases st with
                      | nil => simp at hs; subst hs; cases hτ
                      | cons f st =>
                        simp only at hs
                        cases hd : dstep σ.w m (σ.fates.length - 1) (f :: st) with
                        | mk st' od => cases od <;> simp only [hd] at hs <;> cases hs <;> cases hτ
                exact h0.2.1 (by rw [this])
              · rcases h2 with ⟨b, h2⟩ | ⟨m, st, cb, b, h2⟩ <;> rw [h2] at hτ <;> cases hτ
              · rw [h2] at hτ; cases hτ
              · rw [h2, h] at hτ; cases hτ
              · rw [h2] at hτ; split at hτ <;> cases hτ
              · rw [h2] at hτ; cases hτ
              · rcases h2 with h2 | h2 <;> rw [h2] at hτ <;> cases hτ
              · rw [h2, h] at hτ; cases hτ
              · rw [h2] at hτ; cases hτ
            rcases toDrain_run hi h hq hoff' hs with h1 | ⟨h1, _⟩
            · left
              apply keep
              have h2 := hi'.count
              rw [(run_world hs).2.2.2.2.2.1, h1] at h2
              simp at h2; omega
            · have := ih hi' hpub (by rw [(run_bus hs).1]; exact h) hoff' (fun b hb => ha b (by simp [hb])) he
              rcases this with this | this
              · exact .inl this
              · right
                simp only [runs, List.countP_cons, Act.isRun] at this ⊢
                simp; omega
          | _ => cases hr
        | false =>
          have hst : a ≠ .start := by
            rintro rfl
            simp only [step] at hs
            cases hs
          have h1 := toDrain_external hr h0.2.2 hst hs
          obtain ⟨_, _, hph, hrun⟩ := step_shrinks hr h0.2.2 hs
          have hrun' : (τ.w.bus 0).running = true := by
            rcases hrun with hrun | hrun | hrun
            · rw [hrun]; exact h
            · exact absurd hrun h0.1
            · exact absurd hrun hst
          have hoff' : τ.phase ≠ .off := by
            rcases hph with hph | ⟨_, hph⟩ | ⟨_, hph⟩
            · rw [hph]; exact hoff
            · exact absurd hph hst
            · rw [hph]; simp
          rcases ih hi' hpub hrun' hoff' (fun b hb => ha b (by simp [hb])) he with this | this
          · exact .inl this
          · right
            simp only [runs, List.countP_cons, hr] at this ⊢
            simp; omega

end LP.Bus
