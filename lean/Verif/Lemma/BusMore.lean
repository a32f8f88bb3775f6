import Verif.Lemma.BusTree
/-!
# Further facts along executions of the bus
-/
namespace LP.Bus

/-- Create a hierarchy and execute the events. -/
def play (name : Str) (as : List Act) : Option St := (initial name).bind (fun σ => exec σ as)

theorem play_reachable {name : Str} {as : List Act} {σ : St} (h : play name as = some σ) : Reachable σ := by
  unfold play at h
  cases h0 : initial name with
  | none => simp [h0] at h
  | some σ₀ => simp [h0] at h; exact ⟨name, σ₀, as, h0, h⟩

/-- A concrete run yields a reachable state with the given observation. -/
theorem play_obs {β : Type} (name : Str) (as : List Act) (f : St → β) (v : β) (h : (play name as).map f = some v) :
    ∃ σ, play name as = some σ ∧ Reachable σ ∧ f σ = v := by
  cases hp : play name as with
  | none => simp [hp] at h
  | some σ => simp [hp] at h; exact ⟨σ, rfl, play_reachable hp, h⟩

/-- The same for a run of the form prefix, continuation. -/
theorem play_obs2 {β : Type} (name : Str) (as bs : List Act) (f : St → St → β) (v : β)
    (h : ((play name as).bind (fun σ => (exec σ bs).map (f σ))) = some v) :
    ∃ σ σ', play name as = some σ ∧ Reachable σ ∧ exec σ bs = some σ' ∧ f σ σ' = v := by
  cases hp : play name as with
  | none => simp [hp] at h
  | some σ =>
    simp [hp] at h
    obtain ⟨σ', h1, h2⟩ := h
    exact ⟨σ, σ', rfl, play_reachable hp, h1, h2⟩

/-- Only `Start` and `Stop` of the root change its flag. -/
theorem root_running {σ σ' : St} {a : Act} (hi : Inv σ) (h1 : a ≠ .start) (h2 : a ≠ .stop 0) (hs : step σ a = some σ') :
    (σ'.w.bus 0).running = (σ.w.bus 0).running := by
  by_cases hr : ∃ c, a = .run c
  · obtain ⟨c, rfl⟩ := hr
    rw [(run_bus hs).1]
  · cases hc : a.creates with
    | false =>
      have hr' : a.isRun = false := by
        cases a <;> first | rfl | exact absurd ⟨_, rfl⟩ hr
      obtain ⟨_, _, _, h4⟩ := step_shrinks hr' hc hs
      rcases h4 with h4 | h4 | h4
      · exact h4
      · exact absurd h4 h2
      · exact absurd h4 h1
    | true =>
      cases a with
      | createChild b name =>
        simp only [step] at hs
        split at hs <;> try contradiction
        cases hs
        rcases createChildBus_cases σ.w b name with he | ⟨_, _, _, he⟩
        · simp only [he]
        · have := hi.wok.root
          simp only [he, outcome, World.setBus]
          split
          · subst_vars; rfl
          · rw [if_neg (by omega)]
      | createSub b t cb =>
        simp only [step] at hs
        split at hs <;> try contradiction
        cases hs
        simp only [createSubscriber, outcome, World.setBus, World.setSub]
        split
        · subst_vars; rfl
        · rfl
      | _ => cases hc

/-- The bus thread is in its loop only while the root is running, and nothing was discarded. -/
def Healthy (σ : St) : Prop := (σ.phase ≠ .off → (σ.w.bus 0).running = true) ∧ ∀ f ∈ σ.fates, f = Fate.distributed

theorem healthy_step {σ σ' : St} {a : Act} (hi : Inv σ) (ha : a ≠ .stop 0 ∧ a ≠ .run .throwing) (h : Healthy σ)
    (hs : step σ a = some σ') : Healthy σ' := by
  by_cases hr : ∃ c, a = .run c
  · obtain ⟨c, rfl⟩ := hr
    have hb := (run_bus hs).1
    have hc : c ≠ .throwing := fun e => ha.2 (by rw [e])
    simp only [step] at hs
    have hrun : σ.phase ≠ .off := by
      intro e; unfold rstep at hs; rw [e] at hs; simp at hs
    refine ⟨fun _ => by rw [hb]; exact h.1 hrun, ?_⟩
    have hr := h.1 hrun
    unfold rstep at hs
    split at hs
    case h_11 =>
      rename_i m f st batch hp
      cases hd : dstep σ.w m (σ.fates.length - 1) (f :: st) with
      | mk st' od => cases od <;> simp only [hd] at hs <;> cases hs <;> exact h.2
    case h_9 =>
      rw [if_pos hr] at hs; cases hs
      intro f hf
      rcases List.mem_append.1 hf with hf | hf
      · exact h.2 f hf
      · simpa using hf
    all_goals first
      | (cases hs; exact h.2)
      | exact absurd rfl hc
      | cases hs
  · have hx := step_external hi.wok (fun c e => hr ⟨c, e⟩) hs
    refine ⟨?_, by rw [hx.fates]; exact h.2⟩
    intro hp
    by_cases hst : a = .start
    · subst hst
      simp only [step] at hs
      cases hph : σ.phase <;> simp only [hph] at hs <;> try contradiction
      cases hs
      simp [setRunning, World.setBus]
    · rw [root_running hi hst ha.1 hs]
      apply h.1
      intro e
      rcases hx.phase with h1 | ⟨_, h1⟩ | ⟨h1, _⟩
      · exact hp (h1.trans e)
      · have hra : a.isRun = false := by cases a <;> first | rfl | exact absurd ⟨_, rfl⟩ hr
        cases hc : a.creates with
        | false =>
          rcases (step_shrinks hra hc hs).2.2.1 with h2 | ⟨_, h2⟩ | ⟨h2, _⟩
          · exact hp (h2.trans e)
          · exact hst h2
          · rw [e] at h2; cases h2
        | true =>
          cases a with
          | createChild b name => simp only [step] at hs; split at hs <;> try contradiction
                                  cases hs; exact hp e
          | createSub b t cb => simp only [step] at hs; split at hs <;> try contradiction
                                cases hs; exact hp e
          | _ => cases hc
      · rw [e] at h1; cases h1

theorem healthy_initial {name : Str} {σ : St} (h : initial name = some σ) : Healthy σ := by
  unfold initial at h
  cases hr : newRoot name with
  | error e => simp [hr] at h
  | ok w => simp [hr] at h; subst h; exact ⟨fun h => absurd rfl h, by simp⟩

/-- Delivered messages were not discarded. -/
def Honest (σ : St) : Prop :=
  (∀ m st cb b, σ.phase = .visit m st cb b → σ.fates[σ.fates.length - 1]? = some .distributed) ∧
  ∀ d ∈ σ.log, σ.fates[d.idx]? = some .distributed

theorem honest_step {σ σ' : St} {a : Act} (hi : Inv σ) (h : Honest σ) (hs : step σ a = some σ') : Honest σ' := by
  by_cases hr : ∃ c, a = .run c
  · obtain ⟨c, rfl⟩ := hr
    have keep : ∀ (l : List Fate), ∀ d ∈ σ.log, (σ.fates ++ l)[d.idx]? = some .distributed := by
      intro l d hd
      have h1 := h.2 d hd
      rw [List.getElem?_append_left (hi.log d hd).2.1]; exact h1
    simp only [step] at hs
    unfold rstep at hs
    split at hs
    case h_11 =>
      rename_i m f st batch hp
      have h1 := h.1 _ _ _ _ hp
      cases hd : dstep σ.w m (σ.fates.length - 1) (f :: st) with
      | mk st' od =>
        cases od with
        | none => simp only [hd] at hs; cases hs; exact ⟨fun _ _ _ _ _ => h1, h.2⟩
        | some d =>
          have hx := dstep_delivery (w := σ.w) (m := m) (i := σ.fates.length - 1) (st := f :: st) (d := d) (by rw [hd])
          simp only [hd] at hs; cases hs
          refine ⟨fun _ _ _ _ _ => h1, ?_⟩
          intro e he
          rcases List.mem_append.1 he with he | he
          · exact h.2 e he
          · simp only [List.mem_singleton] at he; subst he; rw [hx.2.1]; exact h1
    case h_9 =>
      split at hs
      · cases hs
        refine ⟨fun _ _ _ _ _ => ?_, keep _⟩
        simp
      · cases hs
        exact ⟨fun _ _ _ _ h => (by cases h), keep _⟩
    case h_12 =>
      rename_i hp
      cases hs; exact ⟨fun _ _ _ _ _ => h.1 _ _ _ _ hp, h.2⟩
    case h_13 =>
      cases hs; exact ⟨fun _ _ _ _ h => (by cases h), keep _⟩
    all_goals first
      | (cases hs; refine ⟨fun _ _ _ _ hv => ?_, h.2⟩; exfalso; revert hv; simp; done)
      | (cases hs; refine ⟨fun _ _ _ _ hv => ?_, h.2⟩; exfalso; revert hv; simp only; split <;> simp; done)
      | cases hs
  · have hx := step_external hi.wok (fun c e => hr ⟨c, e⟩) hs
    refine ⟨?_, by rw [hx.log, hx.fates]; exact h.2⟩
    intro m st cb b hv
    rw [hx.fates]
    rcases hx.phase with h1 | ⟨_, h1⟩ | ⟨_, h1⟩
    · rw [h1] at hv; exact h.1 _ _ _ _ hv
    · rw [h1] at hv; cases hv
    · rw [h1] at hv; cases hv

theorem Reachable.honest {σ : St} (h : Reachable σ) : Honest σ := by
  obtain ⟨name, σ₀, as, h0, he⟩ := h
  refine exec_induct (P := Honest) (Q := fun _ => True) (fun σ a σ' hi _ hp hs => honest_step hi hp hs) (inv_initial h0)
    (fun _ _ => trivial) ?_ he
  unfold initial at h0
  cases hr : newRoot name with
  | error e => simp [hr] at h0
  | ok w => simp [hr] at h0; subst h0; exact ⟨fun _ _ _ _ h => (by cases h), by simp⟩

/-- A stopped bus thread goes through the rest of its batch without delivering anything. -/
theorem skip_batch (σ : St) (h : (σ.w.bus 0).running = false) (batch : List BMsg) :
    exec { σ with phase := .loop batch } (List.replicate (batch.length + 2) (.run .go)) =
      some { σ with phase := .off, fates := σ.fates ++ List.replicate batch.length .skipped } := by
  induction batch generalizing σ with
  | nil => simp [exec, step, rstep, h, List.replicate]
  | cons m batch ih =>
    rw [show (m :: batch).length + 2 = (batch.length + 2) + 1 from rfl, List.replicate_succ]
    have := ih { σ with fates := σ.fates ++ [.skipped] } h
    simp only [exec, step, rstep, h]
    simp only at this
    rw [if_neg (by simp)]
    simp only [this]
    simp [List.replicate_succ]

/-! ## Publishers -/

theorem pub_inactive_step {p : Nat} {σ σ' : St} {a : Act} (hp : p < σ.w.np) (h : (σ.w.pub p).active = false)
    (hs : step σ a = some σ') : p < σ'.w.np ∧ (σ'.w.pub p).active = false := by
  cases a with
  | run c =>
    have hw := run_world hs
    refine ⟨?_, by rw [hw.2.2.2.2.1]; exact h⟩
    simp only [step] at hs
    unfold rstep at hs
    split at hs
    case h_11 =>
      rename_i m f st batch hp
      cases hd : dstep σ.w m (σ.fates.length - 1) (f :: st) with
      | mk st' od => cases od <;> simp only [hd] at hs <;> cases hs <;> assumption
    case h_9 => split at hs <;> cases hs <;> assumption
    all_goals first
      | (cases hs; assumption)
      | cases hs
  | start =>
    simp only [step] at hs
    cases hph : σ.phase <;> simp only [hph] at hs <;> try contradiction
    cases hs; exact ⟨hp, h⟩
  | push i =>
    simp only [step] at hs
    split at hs <;> try contradiction
    cases hs; exact ⟨hp, h⟩
  | createChild b name =>
    simp only [step] at hs
    split at hs <;> try contradiction
    cases hs
    rcases createChildBus_cases σ.w b name with he | ⟨_, _, _, he⟩
    · simp only [he]; exact ⟨hp, h⟩
    · simp only [he, outcome, World.setBus]; exact ⟨hp, h⟩
  | createPub b t =>
    simp only [step] at hs
    split at hs <;> try contradiction
    cases hs
    simp only [createPublisher, outcome, World.setBus, World.setPub]
    exact ⟨by omega, by rw [if_neg (by omega)]; exact h⟩
  | deletePub b q =>
    simp only [step] at hs
    split at hs <;> try contradiction
    cases hs
    simp only [deletePublisher, outcome, World.setBus, World.setPub]
    refine ⟨hp, ?_⟩
    split
    · rfl
    · exact h
  | _ =>
    simp only [step] at hs
    split at hs <;> try contradiction
    cases hs
    exact ⟨hp, h⟩

/-! ## Waking up -/

/-- Own steps until a waiting bus thread takes over the queue. -/
def wake : Phase → Nat
  | .top => 4
  | .pred => 3
  | .drowsy => 5
  | .asleep => 4
  | .woken => 2
  | .drain => 1
  | _ => 0

/-- The bus thread is between two batches. -/
def Waiting (p : Phase) : Prop := p = .top ∨ p = .pred ∨ p = .drowsy ∨ p = .asleep ∨ p = .woken ∨ p = .drain

theorem taken_mono {P : Nat} {σ σ' : St} {as : List Act} (hi : Inv σ) (h : P ≤ σ.fates.length + σ.phase.batch.length)
    (he : exec σ as = some σ') : P ≤ σ'.fates.length + σ'.phase.batch.length := by
  refine exec_induct (P := fun τ => P ≤ τ.fates.length + τ.phase.batch.length) (Q := fun _ => True) ?_ hi
    (fun _ _ => trivial) h he
  intro ρ b ρ' hr _ hp hb
  by_cases hrun : ∃ c, b = .run c
  · obtain ⟨c, rfl⟩ := hrun
    have h1 := hr.count
    have h2 := (inv_step hr hb).count
    rw [(run_world hb).2.2.2.2.2.1] at h2
    have h3 := queue_run hb
    rcases h3 with h3 | h3
    · rw [h3] at h2; omega
    · rw [h3] at h2; simp at h2; omega
  · have hx := step_external hr.wok (fun c e => hrun ⟨c, e⟩) hb
    rw [hx.fates, hx.batch]; exact hp

theorem wake_bound {σ σ' : St} {as : List Act} (hi : Inv σ) (h : (σ.w.bus 0).running = true) (hq : σ.w.queue ≠ [])
    (hw : Waiting σ.phase) (ha : .stop 0 ∉ as) (he : exec σ as = some σ') :
    σ.published.length ≤ σ'.fates.length + σ'.phase.batch.length ∨ runs as + wake σ'.phase ≤ wake σ.phase := by
  suffices H : ∀ P, P ≤ σ.published.length →
      P ≤ σ'.fates.length + σ'.phase.batch.length ∨ runs as + wake σ'.phase ≤ wake σ.phase from H _ (Nat.le_refl _)
  intro P hP
  induction as generalizing σ with
  | nil => simp [exec] at he; subst he; right; simp [runs]
  | cons a as ih =>
    simp only [exec] at he
    cases hs : step σ a with
    | none => simp [hs] at he
    | some τ =>
      simp only [hs] at he
      have hi' := inv_step hi hs
      have ha' : .stop 0 ∉ as := fun hm => ha (by simp [hm])
      have hne : a ≠ .stop 0 := fun e => ha (by simp [e])
      by_cases hr : ∃ c, a = .run c
      · obtain ⟨c, rfl⟩ := hr
        have hb := (run_bus hs).1
        have hpub : P ≤ τ.published.length := by rw [(run_world hs).2.2.2.2.2.1]; exact hP
        have key : (Waiting τ.phase ∧ wake τ.phase < wake σ.phase ∧ τ.w.queue = σ.w.queue) ∨
            (τ.phase = .loop σ.w.queue ∧ τ.w.queue = []) := by
          rcases run_cases hi hs with ⟨m, st, cb, b, h1, h2⟩ | ⟨h1, h2, h3, h4⟩ | ⟨h1, h2, h3⟩ | ⟨h1, h2, h3⟩ |
            ⟨h1, h3, h2⟩ | ⟨h1, h2, h3⟩ | ⟨h1, h2, h3⟩ | ⟨h1, h2, h3⟩ | ⟨h1, h2, h3⟩
          · rw [h1] at hw; simp [Waiting] at hw
          · rcases h1 with ⟨b, h1, _⟩ | ⟨m, st, cb, b, h1⟩ <;> rw [h1] at hw <;> simp [Waiting] at hw
          · rw [h1] at hw; simp [Waiting] at hw
          · rw [h1, h2, h]; left; simp [Waiting, wake, h3]
          · have : σ.w.queue.isEmpty = false := by simpa using hq
            rw [h1, h2, this]; left; simp [Waiting, wake, h3]
          · rw [h1, h2]; left; simp [Waiting, wake, h3]
          · rw [h1]; left; rcases h2 with h2 | h2 <;> rw [h2] <;> simp [Waiting, wake, h3]
          · rw [h1, h2, h]; left; simp [Waiting, wake, h3]
          · right; exact ⟨h2, h3⟩
        rcases key with ⟨k1, k2, k3⟩ | ⟨k1, k2⟩
        · rcases ih hi' (by rw [hb]; exact h) (by rw [k3]; exact hq) k1 ha' he hpub with h1 | h1
          · exact .inl h1
          · right; simp only [runs, List.countP_cons, Act.isRun] at h1 ⊢; simp; omega
        · left
          refine taken_mono hi' ?_ he
          have := hi'.count
          rw [k2] at this; simp at this; omega
      · have hx := step_external hi.wok (fun c e => hr ⟨c, e⟩) hs
        have hra : a.isRun = false := by cases a <;> first | rfl | exact absurd ⟨_, rfl⟩ hr
        obtain ⟨ms, hp, hqq⟩ := hx.queue
        have hst : a ≠ .start := by
          rintro rfl
          simp only [step] at hs
          rcases hw with hw | hw | hw | hw | hw | hw <;> rw [hw] at hs <;> cases hs
        have hph : Waiting τ.phase ∧ wake τ.phase ≤ wake σ.phase := by
          rcases hx.phase with h1 | ⟨h1, _⟩ | ⟨h1, h2⟩
          · rw [h1]; exact ⟨hw, Nat.le_refl _⟩
          · rw [h1] at hw; simp [Waiting] at hw
          · rw [h1, h2]; simp [Waiting, wake]
        rcases ih hi' (by rw [root_running hi hst hne hs]; exact h) (by rw [hqq]; simp [hq]) hph.1 ha' he
          (by rw [hp, List.length_append]; omega) with h1 | h1
        · exact .inl h1
        · right
          have := hph.2
          simp only [runs, List.countP_cons, hra] at h1 ⊢; simp; omega

theorem increasing_length {l : List Nat} {n : Nat} (h : l.Pairwise (· < ·)) (hb : ∀ i ∈ l, i < n) : l.length ≤ n := by
  suffices H : ∀ a, (∀ i ∈ l, a ≤ i) → l.length ≤ n - a by simpa using H 0 (fun _ _ => Nat.zero_le _)
  induction l with
  | nil => intro a _; simp
  | cons x l ih =>
    intro a ha
    rw [List.pairwise_cons] at h
    have h1 := ih h.2 (fun i hi => hb i (by simp [hi])) (x + 1) (fun i hi => h.1 i hi)
    have h2 := ha x (by simp)
    have h3 := hb x (by simp)
    simp only [List.length_cons]; omega

/-! ## Checking concrete runs -/

/-- Every state of a concrete run passes a test. -/
def passes (f : St → Bool) : St → List Act → Bool
  | σ, [] => f σ
  | σ, a :: as => f σ && match step σ a with
    | none => true
    | some σ' => passes f σ' as

theorem passes_throughout {f : St → Bool} {P : St → Prop} (hf : ∀ σ, f σ = true → P σ) {σ : St} {as : List Act}
    (h : passes f σ as = true) : Throughout P σ as := by
  induction as generalizing σ with
  | nil => exact hf σ h
  | cons a as ih =>
    simp only [passes, Bool.and_eq_true] at h
    refine ⟨hf σ h.1, ?_⟩
    intro σ' hs
    rw [hs] at h
    exact ih h.2

/-- Test for a subscriber of a child of the root. -/
def liveChild (s : Nat) (name : Str) (σ : St) : Bool :=
  let b := (σ.w.sub s).home
  (σ.w.bus b).subs.contains s && (σ.w.sub s).cb.isSome && (σ.w.bus 0).running && (σ.w.bus b).running &&
    ((σ.w.bus 0).children.find name == some b)

theorem liveChild_live {s : Nat} {name : Str} (σ : St) (h : liveChild s name σ = true) : Live σ.w s := by
  unfold liveChild at h
  simp only [Bool.and_eq_true] at h
  obtain ⟨⟨⟨⟨h1, h2⟩, h3⟩, h4⟩, h5⟩ := h
  refine ⟨by simpa using h1, ?_, .step (.refl h3) ⟨name, by simpa using h5⟩ h4⟩
  intro e; rw [e] at h2; cases h2

end LP.Bus
