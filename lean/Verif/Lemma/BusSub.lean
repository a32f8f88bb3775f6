import Verif.Lemma.BusMore
/-!
# What single events leave unchanged
-/
namespace LP.Bus

/-- Existing children stay. -/
theorem child_find_step {σ σ' : St} {a : Act} {b c : Nat} {name : Str} (_hi : Inv σ) (hb : b < σ.w.nb)
    (h : (σ.w.bus b).children.find name = some c) (hs : step σ a = some σ') :
    b < σ'.w.nb ∧ (σ'.w.bus b).children.find name = some c := by
  cases a with
  | run c => rw [(run_bus hs).1, (run_bus hs).2]; exact ⟨hb, h⟩
  | createChild b' name' =>
    simp only [step] at hs
    split at hs <;> try contradiction
    cases hs
    rcases createChildBus_cases σ.w b' name' with he | ⟨_, hf, _, he⟩
    · simp only [he]; exact ⟨hb, h⟩
    · simp only [he, outcome, World.setBus]
      refine ⟨by omega, ?_⟩
      split
      · subst_vars
        simp only
        by_cases hn : name = name'
        · subst hn; rw [hf] at h; cases h
        · rw [Dict.find_insert_ne (fun e => hn e.symm)]; exact h
      · rw [if_neg (by omega)]; exact h
  | createSub b' t cb =>
    simp only [step] at hs
    split at hs <;> try contradiction
    cases hs
    simp only [createSubscriber, outcome, World.setBus, World.setSub]
    refine ⟨hb, ?_⟩
    split
    · subst_vars; exact h
    · exact h
  | start =>
    simp only [step] at hs
    cases hph : σ.phase <;> simp only [hph] at hs <;> try contradiction
    cases hs
    simp only [setRunning, World.setBus]
    refine ⟨hb, ?_⟩
    split
    · subst_vars; exact h
    · exact h
  | push i =>
    simp only [step] at hs
    split at hs <;> try contradiction
    cases hs; exact ⟨hb, h⟩
  | _ =>
    simp only [step] at hs
    split at hs <;> try contradiction
    cases hs
    try simp only [setRunning, Bus.stop, Bus.detachOne, createPublisher, deleteSubscriber, deletePublisher, setCallback, outcome,
      World.setBus, World.setSub, World.setPub]
    refine ⟨hb, ?_⟩
    first
      | exact h
      | (split
         · subst_vars; exact h
         · exact h)

/-- A name appears only by creating it. -/
theorem child_none_step {σ σ' : St} {a : Act} {b : Nat} {name : Str} (_hi : Inv σ) (ha : a ≠ .createChild b name)
    (h : (σ.w.bus b).children.find name = none) (hs : step σ a = some σ') :
    (σ'.w.bus b).children.find name = none := by
  cases a with
  | run c => rw [(run_bus hs).1]; exact h
  | createChild b' name' =>
    simp only [step] at hs
    split at hs <;> try contradiction
    cases hs
    rcases createChildBus_cases σ.w b' name' with he | ⟨_, hf, _, he⟩
    · simp only [he]; exact h
    · simp only [he, outcome, World.setBus]
      split
      · subst_vars
        simp only
        by_cases hn : name = name'
        · subst hn; exact absurd rfl ha
        · rw [Dict.find_insert_ne (fun e => hn e.symm)]; exact h
      · split
        · rfl
        · exact h
  | createSub b' t cb =>
    simp only [step] at hs
    split at hs <;> try contradiction
    cases hs
    simp only [createSubscriber, outcome, World.setBus, World.setSub]
    split
    · subst_vars; exact h
    · exact h
  | start =>
    simp only [step] at hs
    cases hph : σ.phase <;> simp only [hph] at hs <;> try contradiction
    cases hs
    simp only [setRunning, World.setBus]
    split
    · subst_vars; exact h
    · exact h
  | push i =>
    simp only [step] at hs
    split at hs <;> try contradiction
    cases hs; exact h
  | _ =>
    simp only [step] at hs
    split at hs <;> try contradiction
    cases hs
    try simp only [setRunning, Bus.stop, Bus.detachOne, createPublisher, deleteSubscriber, deletePublisher, setCallback, outcome,
      World.setBus, World.setSub, World.setPub]
    first
      | exact h
      | (split
         · subst_vars; exact h
         · exact h)

/-- Names of buses never change. -/
theorem name_step {σ σ' : St} {a : Act} {b : Nat} {x : Str} (hb : b < σ.w.nb) (h : (σ.w.bus b).name = x)
    (hs : step σ a = some σ') : b < σ'.w.nb ∧ (σ'.w.bus b).name = x := by
  cases a with
  | run c => rw [(run_bus hs).1, (run_bus hs).2]; exact ⟨hb, h⟩
  | createChild b' name' =>
    simp only [step] at hs
    split at hs <;> try contradiction
    cases hs
    rcases createChildBus_cases σ.w b' name' with he | ⟨_, hf, _, he⟩
    · simp only [he]; exact ⟨hb, h⟩
    · simp only [he, outcome, World.setBus]
      refine ⟨by omega, ?_⟩
      split
      · subst_vars; first | exact h | rfl
      · rw [if_neg (by omega)]; exact h
  | createSub b' t cb =>
    simp only [step] at hs
    split at hs <;> try contradiction
    cases hs
    simp only [createSubscriber, outcome, World.setBus, World.setSub]
    refine ⟨hb, ?_⟩
    split
    · subst_vars; first | exact h | rfl
    · exact h
  | start =>
    simp only [step] at hs
    cases hph : σ.phase <;> simp only [hph] at hs <;> try contradiction
    cases hs
    simp only [setRunning, World.setBus]
    refine ⟨hb, ?_⟩
    split
    · subst_vars; first | exact h | rfl
    · exact h
  | push i =>
    simp only [step] at hs
    split at hs <;> try contradiction
    cases hs; exact ⟨hb, h⟩
  | _ =>
    simp only [step] at hs
    split at hs <;> try contradiction
    cases hs
    try simp only [setRunning, Bus.stop, Bus.detachOne, createPublisher, deleteSubscriber, deletePublisher, setCallback, outcome,
      World.setBus, World.setSub, World.setPub]
    refine ⟨hb, ?_⟩
    first
      | exact h
      | (split
         · subst_vars; first | exact h | rfl
         · exact h)

/-- Topic and bus of a publisher never change. -/
theorem pub_const_step {σ σ' : St} {a : Act} {p : Nat} {t : Str} {b : Nat} (hp : p < σ.w.np)
    (h : (σ.w.pub p).topic = t ∧ (σ.w.pub p).bus = b) (hs : step σ a = some σ') :
    p < σ'.w.np ∧ (σ'.w.pub p).topic = t ∧ (σ'.w.pub p).bus = b := by
  cases a with
  | run c =>
    simp only [step] at hs
    unfold rstep at hs
    split at hs
    case h_11 =>
      rename_i m f st batch hph
      cases hd : dstep σ.w m (σ.fates.length - 1) (f :: st) with
      | mk st' od => cases od <;> simp only [hd] at hs <;> cases hs <;> exact ⟨hp, h⟩
    case h_9 => split at hs <;> cases hs <;> exact ⟨hp, h⟩
    all_goals first
      | (cases hs; exact ⟨hp, h⟩)
      | cases hs
  | createChild b' name' =>
    simp only [step] at hs
    split at hs <;> try contradiction
    cases hs
    rcases createChildBus_cases σ.w b' name' with he | ⟨_, hf, _, he⟩
    · simp only [he]; exact ⟨hp, h⟩
    · simp only [he, outcome, World.setBus]; exact ⟨hp, h⟩
  | createPub b' t =>
    simp only [step] at hs
    split at hs <;> try contradiction
    cases hs
    simp only [createPublisher, outcome, World.setBus, World.setPub]
    rw [if_neg (by omega)]
    exact ⟨by omega, h⟩
  | deletePub b' q =>
    simp only [step] at hs
    split at hs <;> try contradiction
    cases hs
    simp only [deletePublisher, outcome, World.setBus, World.setPub]
    refine ⟨hp, ?_⟩
    split
    · subst_vars; exact h
    · exact h
  | start =>
    simp only [step] at hs
    cases hph : σ.phase <;> simp only [hph] at hs <;> try contradiction
    cases hs; exact ⟨hp, h⟩
  | _ =>
    simp only [step] at hs
    split at hs <;> try contradiction
    cases hs
    exact ⟨hp, h⟩

/-- A subscriber without callback stays silent until it is given one. -/
theorem mute_step {σ σ' : St} {a : Act} {s : Nat} {l : List Nat} (_hi : Inv σ) (ha : ∀ f, a ≠ .setCb s f)
    (h : s < σ.w.ns ∧ (σ.w.sub s).cb = none) (hl : received s σ.log = l) (hs : step σ a = some σ') :
    (s < σ'.w.ns ∧ (σ'.w.sub s).cb = none) ∧ received s σ'.log = l := by
  cases a with
  | run c =>
    have hw := run_world hs
    refine ⟨by rw [hw.2.2.1, hw.2.2.2.1]; exact h, ?_⟩
    simp only [step] at hs
    unfold rstep at hs
    split at hs
    case h_11 =>
      rename_i m f st batch hph
      cases hd : dstep σ.w m (σ.fates.length - 1) (f :: st) with
      | mk st' od =>
        cases od with
        | none => simp only [hd] at hs; cases hs; exact hl
        | some d =>
          simp only [hd] at hs; cases hs
          have hx := dstep_delivery (w := σ.w) (m := m) (i := σ.fates.length - 1) (st := f :: st) (d := d) (by rw [hd])
          have hne : d.sub ≠ s := by
            intro e
            have := hx.2.2.2.2
            rw [e, h.2] at this; cases this
          rw [← hl]
          simp [received, List.filter_append, hne]
    case h_9 => split at hs <;> cases hs <;> exact hl
    all_goals first
      | (cases hs; exact hl)
      | cases hs
  | createChild b' name' =>
    simp only [step] at hs
    split at hs <;> try contradiction
    cases hs
    rcases createChildBus_cases σ.w b' name' with he | ⟨_, hf, _, he⟩
    · simp only [he]; exact ⟨h, hl⟩
    · simp only [he, outcome, World.setBus]; exact ⟨h, hl⟩
  | createSub b' t cb =>
    simp only [step] at hs
    split at hs <;> try contradiction
    cases hs
    simp only [createSubscriber, outcome, World.setBus, World.setSub]
    rw [if_neg (by omega)]
    exact ⟨⟨by omega, h.2⟩, hl⟩
  | setCb s' f =>
    simp only [step] at hs
    split at hs <;> try contradiction
    cases hs
    simp only [setCallback, World.setSub]
    have : s ≠ s' := fun e => ha f (by rw [e])
    rw [if_neg this]
    exact ⟨h, hl⟩
  | deleteSub b' s' =>
    simp only [step] at hs
    split at hs <;> try contradiction
    cases hs
    simp only [deleteSubscriber, outcome, World.setBus, World.setSub]
    refine ⟨⟨h.1, ?_⟩, hl⟩
    split
    · rfl
    · exact h.2
  | start =>
    simp only [step] at hs
    cases hph : σ.phase <;> simp only [hph] at hs <;> try contradiction
    cases hs; exact ⟨h, hl⟩
  | _ =>
    simp only [step] at hs
    split at hs <;> try contradiction
    cases hs
    exact ⟨h, hl⟩

/-- A registered subscriber stays registered until deleted on its bus. -/
theorem stays_step {σ σ' : St} {a : Act} {b s : Nat} (hi : Inv σ) (ha : a ≠ .deleteSub b s) (hlt : s < σ.w.ns)
    (h : s ∈ (σ.w.bus b).subs) (hs : step σ a = some σ') : s < σ'.w.ns ∧ s ∈ (σ'.w.bus b).subs := by
  have hb : b < σ.w.nb := by
    have := hi.wok.home s hlt
    rw [(hi.wok.subsHome b s h).2] at this; exact this
  cases a with
  | run c => rw [(run_bus hs).1, (run_world hs).2.2.2.1]; exact ⟨hlt, h⟩
  | createChild b' name' =>
    simp only [step] at hs
    split at hs <;> try contradiction
    cases hs
    rcases createChildBus_cases σ.w b' name' with he | ⟨_, hf, _, he⟩
    · simp only [he]; exact ⟨hlt, h⟩
    · simp only [he, outcome, World.setBus]
      refine ⟨hlt, ?_⟩
      split
      · subst_vars; exact h
      · rw [if_neg (by omega)]; exact h
  | createSub b' t cb =>
    simp only [step] at hs
    split at hs <;> try contradiction
    cases hs
    simp only [createSubscriber, outcome, World.setBus, World.setSub]
    refine ⟨by omega, ?_⟩
    split
    · subst_vars; simp [h]
    · exact h
  | deleteSub b' s' =>
    simp only [step] at hs
    split at hs <;> try contradiction
    cases hs
    simp only [deleteSubscriber, outcome, World.setBus, World.setSub]
    refine ⟨hlt, ?_⟩
    split
    · rename_i e
      subst e
      have : s ≠ s' := fun e => ha (by rw [e])
      simp [h, this]
    · exact h
  | start =>
    simp only [step] at hs
    cases hph : σ.phase <;> simp only [hph] at hs <;> try contradiction
    cases hs
    simp only [setRunning, World.setBus]
    refine ⟨hlt, ?_⟩
    split
    · subst_vars; exact h
    · exact h
  | push i =>
    simp only [step] at hs
    split at hs <;> try contradiction
    cases hs; exact ⟨hlt, h⟩
  | _ =>
    simp only [step] at hs
    split at hs <;> try contradiction
    cases hs
    try simp only [setRunning, Bus.stop, Bus.detachOne, createPublisher, deletePublisher, setCallback, outcome,
      World.setBus, World.setSub, World.setPub]
    refine ⟨hlt, ?_⟩
    first
      | exact h
      | (split
         · subst_vars; exact h
         · exact h)

end LP.Bus
