import Verif.Lemma.BusWorld
/-!
# Invariants of the bus under concurrency
-/
namespace LP.Bus

/-- How often `b` is still to be visited, or is being visited, by this activation. -/
noncomputable def cov (w : World) (b : Nat) : Frame → Nat
  | .want b' => ind (Anc w b' b)
  | .subs b' _ => ind (Anc w b' b)
  | .gap b' => ind (Anc w b' b)
  | .kids b' rest => ind (b' = b) + cnt w b rest

/-- How often subscriber `s`, living on `b`, is still to be visited. -/
noncomputable def pend (w : World) (s b : Nat) : Frame → Nat
  | .want b' => ind (Anc w b' b)
  | .subs b' rest => rest.count s + ind (Anc w b' b ∧ b' ≠ b)
  | .gap b' => ind (Anc w b' b ∧ b' ≠ b)
  | .kids _ rest => cnt w b rest

/-- How often the stack will still come to bus `b`. -/
noncomputable def covS (w : World) (b : Nat) (st : List Frame) : Nat := (st.map (cov w b)).sum
/-- How often the stack will still come to subscriber `s` of bus `b`. -/
noncomputable def pendS (w : World) (s b : Nat) (st : List Frame) : Nat := (st.map (pend w s b)).sum

theorem covS_nil (w : World) (b : Nat) : covS w b [] = 0 := rfl
theorem covS_cons (w : World) (b : Nat) (f : Frame) (st : List Frame) : covS w b (f :: st) = cov w b f + covS w b st := by
  simp [covS]
theorem pendS_nil (w : World) (s b : Nat) : pendS w s b [] = 0 := rfl
theorem pendS_cons (w : World) (s b : Nat) (f : Frame) (st : List Frame) :
    pendS w s b (f :: st) = pend w s b f + pendS w s b st := by
  simp [pendS]

/-- The activation refers to existing buses; the subscribers it still has to visit are those of the locked list. -/
def Frame.Ok (w : World) : Frame → Prop
  | .want b => b < w.nb
  | .subs b rest => b < w.nb ∧ rest.Nodup ∧ ∀ s ∈ rest, s ∈ (w.bus b).subs
  | .gap b => b < w.nb
  | .kids b rest => b < w.nb ∧ ∀ c ∈ rest, c < w.nb

/-- The call stack of `Distribute` never visits a bus twice. -/
def SOkStack (w : World) (st : List Frame) : Prop :=
  (∀ f ∈ st, f.Ok w) ∧ ∀ b, b < w.nb → covS w b st ≤ 1

/-- The call stack of the bus thread. -/
def Phase.stack : Phase → List Frame
  | .visit _ st _ _ => st
  | _ => []

theorem holdsSubs_iff {b : Nat} {p : Phase} : holdsSubs b p = true ↔ ∃ rest, Frame.subs b rest ∈ p.stack := by
  cases p <;> simp only [holdsSubs, Phase.stack, Bool.false_eq_true, List.not_mem_nil, exists_false, List.any_eq_true]
  rename_i m st cb batch
  constructor
  · rintro ⟨f, hf, h⟩
    cases f <;> simp at h
    subst h; exact ⟨_, hf⟩
  · rintro ⟨rest, h⟩
    exact ⟨_, h, by simp⟩

theorem holdsKids_iff {b : Nat} {p : Phase} : holdsKids b p = true ↔ ∃ rest, Frame.kids b rest ∈ p.stack := by
  cases p <;> simp only [holdsKids, Phase.stack, Bool.false_eq_true, List.not_mem_nil, exists_false, List.any_eq_true]
  rename_i m st cb batch
  constructor
  · rintro ⟨f, hf, h⟩
    cases f <;> simp at h
    subst h; exact ⟨_, hf⟩
  · rintro ⟨rest, h⟩
    exact ⟨_, h, by simp⟩

/-- What an event of another thread (or an API call from a callback) can change. -/
structure External (σ σ' : St) : Prop where
  wok : WOk σ'.w
  grows : Grows σ.w σ'.w
  fresh : ∀ b, σ.w.nb ≤ b → b < σ'.w.nb → ∃ b0, b0 < σ.w.nb ∧ holdsKids b0 σ.phase = false ∧
    (σ.w.bus b0).attached = true ∧ ∀ a, Anc σ'.w a b ↔ a = b ∨ Anc σ.w a b0
  subsLocked : ∀ b, holdsSubs b σ.phase = true → (σ'.w.bus b).subs = (σ.w.bus b).subs
  subsOld : ∀ b s, s < σ.w.ns → s ∈ (σ'.w.bus b).subs → s ∈ (σ.w.bus b).subs
  attached : ∀ b, b < σ.w.nb → (σ'.w.bus b).attached = true → (σ.w.bus b).attached = true
  phase : σ'.phase = σ.phase ∨ (σ.phase = .off ∧ σ'.phase = .top) ∨ (σ.phase = .asleep ∧ σ'.phase = .pred)
  log : σ'.log = σ.log
  fates : σ'.fates = σ.fates
  queue : ∃ ms, σ'.published = σ.published ++ ms ∧ σ'.w.queue = σ.w.queue ++ ms

theorem External.stack {σ σ' : St} (h : External σ σ') : σ'.phase.stack = σ.phase.stack := by
  rcases h.phase with h | ⟨h1, h2⟩ | ⟨h1, h2⟩
  · rw [h]
  · rw [h1, h2]; rfl
  · rw [h1, h2]; rfl

theorem External.batch {σ σ' : St} (h : External σ σ') : σ'.phase.batch = σ.phase.batch := by
  rcases h.phase with h | ⟨h1, h2⟩ | ⟨h1, h2⟩
  · rw [h]
  · rw [h1, h2]; rfl
  · rw [h1, h2]; rfl

/-- A change of the objects only. -/
theorem external_world {σ : St} {w' : World} {infl : List BMsg} (hw : WOk w' ∧ Grows σ.w w') (hnb : w'.nb = σ.w.nb)
    (hsl : ∀ b, holdsSubs b σ.phase = true → (w'.bus b).subs = (σ.w.bus b).subs)
    (hso : ∀ b s, s < σ.w.ns → s ∈ (w'.bus b).subs → s ∈ (σ.w.bus b).subs)
    (hat : ∀ b, b < σ.w.nb → (w'.bus b).attached = true → (σ.w.bus b).attached = true)
    (hq : w'.queue = σ.w.queue) : External σ { σ with w := w', inflight := infl } :=
  ⟨hw.1, hw.2, fun b h1 h2 => absurd h2 (by simp only [hnb]; omega), hsl, hso, hat, .inl rfl, rfl, rfl,
    ⟨[], by simp, by simp [hq]⟩⟩

theorem external_setBus {σ : St} (hw : WOk σ.w) {b : Nat} {x : BusSt} (hn : x.name = (σ.w.bus b).name)
    (hc : x.children = (σ.w.bus b).children) (hs : x.subs = (σ.w.bus b).subs)
    (ha : x.attached = true → (σ.w.bus b).attached = true) :
    External σ { σ with w := σ.w.setBus b x } := by
  have := external_world (σ := σ) (w' := σ.w.setBus b x) (infl := σ.inflight)
    (setBus_ok hw hn hc (hs ▸ List.Sublist.refl _)) rfl ?_ ?_ ?_ rfl
  · exact this
  · intro i _; simp only [World.setBus]; split
    · subst_vars; exact hs
    · rfl
  · intro i s _; simp only [World.setBus]; split
    · subst_vars; rw [hs]; exact id
    · exact id
  · intro i _; simp only [World.setBus]; split
    · subst_vars; exact ha
    · exact id

theorem step_external {σ σ' : St} {a : Act} (hw : WOk σ.w) (hr : ∀ c, a ≠ .run c) (h : step σ a = some σ') :
    External σ σ' := by
  have hrefl : WOk σ.w ∧ Grows σ.w σ.w := ⟨hw, .refl _⟩
  cases a with
  | run c => exact absurd rfl (hr c)
  | start =>
    simp only [step] at h
    cases hp : σ.phase <;> simp only [hp] at h <;> try contradiction
    cases h
    have h1 := external_setBus (σ := σ) hw (b := 0) (x := { σ.w.bus 0 with running := true }) rfl rfl rfl id
    exact ⟨h1.wok, h1.grows, h1.fresh, h1.subsLocked, h1.subsOld, h1.attached, .inr (.inl ⟨hp, rfl⟩), rfl, rfl, h1.queue⟩
  | startChild b =>
    simp only [step] at h; split at h <;> try contradiction
    cases h
    exact external_setBus hw rfl rfl rfl id
  | stop b =>
    simp only [step] at h; split at h <;> try contradiction
    cases h
    exact external_setBus hw rfl rfl rfl id
  | publish b m =>
    simp only [step] at h; split at h <;> try contradiction
    cases h
    exact external_world hrefl rfl (fun _ _ => rfl) (fun _ _ _ => id) (fun _ _ => id) rfl
  | pubPublish p d =>
    simp only [step] at h; split at h <;> try contradiction
    cases h
    exact external_world hrefl rfl (fun _ _ => rfl) (fun _ _ _ => id) (fun _ _ => id) rfl
  | push i =>
    simp only [step] at h
    cases hi : σ.inflight[i]? with
    | none => simp only [hi] at h; contradiction
    | some m =>
      simp only [hi] at h
      cases h
      have h1 := pubs_ok hw σ.w.np σ.w.pub (σ.w.queue ++ [m])
      exact ⟨h1.1, h1.2, fun b h1 h2 => absurd h2 (by simp only [push]; omega), fun _ _ => rfl, fun _ _ _ => id,
        fun _ _ => id, .inl rfl, rfl, rfl, ⟨[m], rfl, rfl⟩⟩
  | notify =>
    simp only [step] at h; split at h <;> try contradiction
    cases h
    refine ⟨hw, .refl _, fun b h1 h2 => absurd h2 (by simp only; omega), fun _ _ => rfl, fun _ _ _ => id,
        fun _ _ => id, ?_, rfl, rfl, ⟨[], by simp, by simp⟩⟩
    simp only
    split
    · rename_i hp; exact .inr (.inr ⟨hp, rfl⟩)
    · exact .inl rfl
  | createChild b name =>
    simp only [step] at h; split at h <;> try contradiction
    rename_i hb
    cases h
    have h1 := createChildBus_ok hw b hb.1 name
    rcases createChildBus_cases σ.w b name with h | ⟨hn, hf, hat, h⟩
    · simp only [h]
      exact external_world hrefl rfl (fun _ _ => rfl) (fun _ _ _ => id) (fun _ _ => id) rfl
    · have hne : b ≠ σ.w.nb := Nat.ne_of_lt hb.1
      refine ⟨h1.1, h1.2.1, ?_, ?_, ?_, ?_, .inl rfl, rfl, rfl, ⟨[], by simp, by rw [h]; simp [outcome, World.setBus]⟩⟩
      · intro c hc1 hc2
        have hnb : (outcome σ.w (createChildBus b name σ.w)).nb = σ.w.nb + 1 := by rw [h]; rfl
        simp only [hnb] at hc2
        have : c = σ.w.nb := by omega
        subst this
        exact ⟨b, hb.1, hb.2, hat, fun a => h1.2.2 a (by rw [hnb]; omega)⟩
      · intro i hi
        simp only [h, outcome, World.setBus]
        split
        · subst_vars; rfl
        · split
          · rename_i e
            obtain ⟨rest, hr⟩ := holdsSubs_iff.1 hi
            subst e
            apply Eq.symm
            apply List.eq_nil_iff_forall_not_mem.2
            intro s hs
            have := hw.home s (hw.subsHome _ _ hs).1
            rw [(hw.subsHome _ _ hs).2] at this; omega
          · rfl
      · intro i s _ hs
        simp only [h, outcome, World.setBus] at hs
        split at hs
        · subst_vars; exact hs
        · split at hs
          · cases hs
          · exact hs
      · intro i hi
        simp only [h, outcome, World.setBus]
        split
        · subst_vars; exact id
        · split
          · omega
          · exact id
  | createSub b t cb =>
    simp only [step] at h; split at h <;> try contradiction
    rename_i hb
    cases h
    refine external_world (createSubscriber_ok hw b hb.1 t cb) rfl ?_ ?_ ?_ rfl
    · intro i hi
      have : i ≠ b := by rintro rfl; rw [hb.2] at hi; cases hi
      simp [createSubscriber, outcome, World.setBus, World.setSub, this]
    · intro i s hs
      simp only [createSubscriber, outcome, World.setBus, World.setSub]
      split
      · subst_vars
        simp only [List.mem_append, List.mem_singleton]
        rintro (h | h)
        · exact h
        · omega
      · exact id
    · intro i _
      simp only [createSubscriber, outcome, World.setBus, World.setSub]
      split
      · subst_vars; exact id
      · exact id
  | createPub b t =>
    simp only [step] at h; split at h <;> try contradiction
    cases h
    refine external_world (createPublisher_ok hw b t) rfl ?_ ?_ ?_ rfl
    · intro i hi
      simp only [createPublisher, outcome, World.setBus, World.setPub]
      split
      · subst_vars; rfl
      · rfl
    · intro i s hs
      simp only [createPublisher, outcome, World.setBus, World.setPub]
      split
      · subst_vars; exact id
      · exact id
    · intro i _
      simp only [createPublisher, outcome, World.setBus, World.setPub]
      split
      · subst_vars; exact id
      · exact id
  | deleteSub b s =>
    simp only [step] at h; split at h <;> try contradiction
    rename_i hb
    cases h
    refine external_world (deleteSubscriber_ok hw b s) rfl ?_ ?_ ?_ rfl
    · intro i hi
      have : i ≠ b := by rintro rfl; rw [hb.2.2] at hi; cases hi
      simp [deleteSubscriber, outcome, World.setBus, World.setSub, this]
    · intro i s hs
      simp only [deleteSubscriber, outcome, World.setBus, World.setSub]
      split
      · subst_vars
        intro h
        exact (List.mem_filter.1 h).1
      · exact id
    · intro i _
      simp only [deleteSubscriber, outcome, World.setBus, World.setSub]
      split
      · subst_vars; exact id
      · exact id
  | deletePub b p =>
    simp only [step] at h; split at h <;> try contradiction
    cases h
    refine external_world (deletePublisher_ok hw b p) rfl ?_ ?_ ?_ rfl
    · intro i hi
      simp only [deletePublisher, outcome, World.setBus, World.setPub]
      split
      · subst_vars; rfl
      · rfl
    · intro i s hs
      simp only [deletePublisher, outcome, World.setBus, World.setPub]
      split
      · subst_vars; exact id
      · exact id
    · intro i _
      simp only [deletePublisher, outcome, World.setBus, World.setPub]
      split
      · subst_vars; exact id
      · exact id
  | setCb s cb =>
    simp only [step] at h; split at h <;> try contradiction
    cases h
    exact external_world (setCallback_ok hw s cb) rfl (fun _ _ => rfl) (fun _ _ _ => id) (fun _ _ => id) rfl
  | detachOne b =>
    simp only [step] at h; split at h <;> try contradiction
    cases h
    exact external_setBus hw rfl rfl rfl (fun h => by simp at h)

end LP.Bus
