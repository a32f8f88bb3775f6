import Verif.Lemma.BusStep
/-!
# How many steps the bus thread can take
-/
namespace LP.Bus

/-- Upper bound for the number of steps of `Distribute` on a bus; the first argument bounds the depth. -/
def costF (w : World) : Nat → Nat → Nat
  | 0, _ => 0
  | n + 1, b => 4 + 2 * (w.bus b).subs.length + ((w.bus b).children.vals.map (fun c => 1 + costF w n c)).sum

theorem sum_le {α : Type} {f g : α → Nat} {l : List α} (h : ∀ a ∈ l, f a ≤ g a) : (l.map f).sum ≤ (l.map g).sum := by
  induction l with
  | nil => simp
  | cons a l ih =>
    have := h a (by simp)
    have := ih (fun b hb => h b (by simp [hb]))
    simp; omega

theorem costF_succ (w : World) (n b : Nat) : costF w n b ≤ costF w (n + 1) b := by
  induction n generalizing b with
  | zero => simp [costF]
  | succ n ih =>
    rw [costF, costF]
    have := sum_le (f := fun c => 1 + costF w n c) (g := fun c => 1 + costF w (n + 1) c) (l := (w.bus b).children.vals)
      (fun c _ => Nat.add_le_add_left (ih c) 1)
    omega

theorem costF_mono (w : World) {n n' : Nat} (h : n ≤ n') (b : Nat) : costF w n b ≤ costF w n' b := by
  induction h with
  | refl => exact Nat.le_refl _
  | step _ ih => exact Nat.le_trans ih (costF_succ w _ b)

/-- The steps it takes to distribute a message from bus `b` down. -/
def cost (w : World) (b : Nat) : Nat := costF w (w.nb - b) b
/-- The same for a list of child buses. -/
def kidsCost (w : World) (cs : List Nat) : Nat := (cs.map (fun c => 1 + cost w c)).sum

theorem cost_ge {w : World} (hw : WOk w) {b : Nat} (hb : b < w.nb) :
    4 + 2 * (w.bus b).subs.length + kidsCost w (w.bus b).children.vals ≤ cost w b := by
  unfold cost kidsCost
  obtain ⟨n, hn⟩ : ∃ n, w.nb - b = n + 1 := ⟨w.nb - b - 1, by omega⟩
  rw [hn, costF]
  apply Nat.add_le_add_left
  apply sum_le
  intro c hc
  have := hw.child b c hc
  unfold cost
  exact Nat.add_le_add_left (costF_mono w (by omega) c) 1

/-- The steps left in one frame. -/
def fcost (w : World) : Frame → Nat
  | .want b => cost w b
  | .subs b rest => 3 + 2 * rest.length + kidsCost w (w.bus b).children.vals
  | .gap b => 2 + kidsCost w (w.bus b).children.vals
  | .kids _ rest => 1 + kidsCost w rest

/-- The steps left in a stack of frames. -/
def stCost (w : World) (st : List Frame) : Nat := (st.map (fcost w)).sum

theorem stCost_cons (w : World) (f : Frame) (st : List Frame) : stCost w (f :: st) = fcost w f + stCost w st := by
  simp [stCost]

theorem kidsCost_cons (w : World) (c : Nat) (cs : List Nat) : kidsCost w (c :: cs) = 1 + cost w c + kidsCost w cs := by
  simp [kidsCost]

theorem dstep_cost {w : World} (hw : WOk w) {m : BMsg} {i : Nat} {f : Frame} {st : List Frame}
    (h : ∀ g ∈ f :: st, g.Ok w) :
    stCost w (dstep w m i (f :: st)).1 + (if (dstep w m i (f :: st)).2.isSome then 1 else 0) + 1 ≤ stCost w (f :: st) := by
  cases f with
  | want b =>
    have := cost_ge hw (h (.want b) (by simp))
    simp only [dstep, stCost_cons, fcost, Option.isSome]; simp; omega
  | gap b => simp only [dstep, stCost_cons, fcost, Option.isSome]; simp; omega
  | subs b rest =>
    cases rest with
    | nil => simp only [dstep, stCost_cons, fcost, Option.isSome]; simp; omega
    | cons s rest =>
      cases ho : offer w m s <;> simp [dstep, ho, stCost_cons, fcost] <;> omega
  | kids b rest =>
    cases rest with
    | nil => simp only [dstep, stCost_cons, fcost, Option.isSome]; simp; omega
    | cons c rest =>
      simp only [dstep]
      split <;> simp only [stCost_cons, fcost, kidsCost_cons, Option.isSome] <;> simp <;> omega

/-- The work per message. -/
def unit (w : World) : Nat := cost w 0 + 2

/-- A bound on the steps to the end of the batch. -/
def busy (w : World) : Phase → Nat
  | .loop batch => unit w * batch.length
  | .visit _ st cb batch => unit w * batch.length + stCost w st + (if cb then 1 else 0) + 1
  | _ => 0

/-- A bound on the steps of the bus thread once the root was stopped. -/
def toExit (σ : St) : Nat :=
  match σ.phase with
  | .off => 0
  | .top => 1
  | .woken => 1
  | .pred => 2
  | .asleep => 3
  | .drowsy => 4
  | .drain => 3 + unit σ.w * σ.w.queue.length
  | .loop _ => 2 + busy σ.w σ.phase
  | .visit _ _ _ _ => 2 + busy σ.w σ.phase

/-- A bound on the steps until a non-empty queue of a running bus is taken over. -/
def toDrain (σ : St) : Nat :=
  match σ.phase with
  | .off => 0
  | .drain => 1
  | .woken => 2
  | .pred => 3
  | .asleep => 4
  | .top => 4
  | .drowsy => 5
  | .loop _ => 5 + busy σ.w σ.phase
  | .visit _ _ _ _ => 5 + busy σ.w σ.phase

/-! ## Interference that creates nothing does not increase the work -/

/-- No new buses and subscribers. -/
structure Shrinks (w w' : World) : Prop where
  nb : w'.nb = w.nb
  kids : ∀ b, (w'.bus b).children = (w.bus b).children
  subs : ∀ b, (w'.bus b).subs.length ≤ (w.bus b).subs.length

theorem Shrinks.refl (w : World) : Shrinks w w := ⟨rfl, fun _ => rfl, fun _ => Nat.le_refl _⟩

theorem costF_shrinks {w w' : World} (h : Shrinks w w') (n b : Nat) : costF w' n b ≤ costF w n b := by
  induction n generalizing b with
  | zero => exact Nat.le_refl _
  | succ n ih =>
    rw [costF, costF, h.kids]
    have := h.subs b
    have := sum_le (f := fun c => 1 + costF w' n c) (g := fun c => 1 + costF w n c) (l := (w.bus b).children.vals)
      (fun c _ => Nat.add_le_add_left (ih c) 1)
    omega

theorem cost_shrinks {w w' : World} (h : Shrinks w w') (b : Nat) : cost w' b ≤ cost w b := by
  unfold cost; rw [h.nb]; exact costF_shrinks h _ _

theorem kidsCost_shrinks {w w' : World} (h : Shrinks w w') (cs : List Nat) : kidsCost w' cs ≤ kidsCost w cs :=
  sum_le (fun c _ => Nat.add_le_add_left (cost_shrinks h c) 1)

theorem stCost_shrinks {w w' : World} (h : Shrinks w w') (st : List Frame) : stCost w' st ≤ stCost w st := by
  apply sum_le
  intro f _
  cases f with
  | want b => exact cost_shrinks h b
  | subs b rest => simp only [fcost, h.kids]; have := kidsCost_shrinks h (w.bus b).children.vals; omega
  | gap b => simp only [fcost, h.kids]; have := kidsCost_shrinks h (w.bus b).children.vals; omega
  | kids b rest => simp only [fcost]; have := kidsCost_shrinks h rest; omega

theorem unit_shrinks {w w' : World} (h : Shrinks w w') : unit w' ≤ unit w :=
  Nat.add_le_add_right (cost_shrinks h 0) 2

theorem busy_shrinks {w w' : World} (h : Shrinks w w') (p : Phase) : busy w' p ≤ busy w p := by
  have hu := unit_shrinks h
  cases p <;> simp only [busy] <;> try omega
  · exact Nat.mul_le_mul_right _ hu
  · rename_i m st cb batch
    have := Nat.mul_le_mul_right batch.length hu
    have := stCost_shrinks h st
    omega

/-- Events that create neither buses nor subscribers. -/
def Act.creates : Act → Bool
  | .createChild _ _ => true
  | .createSub _ _ _ => true
  | _ => false

/-- A message is appended to the queue. -/
def Act.isPush : Act → Bool
  | .push _ => true
  | _ => false

/-- A step of the bus thread. -/
def Act.isRun : Act → Bool
  | .run _ => true
  | _ => false

theorem shrinks_setBus {w : World} {b : Nat} {x : BusSt} (hc : x.children = (w.bus b).children)
    (hs : x.subs.length ≤ (w.bus b).subs.length) : Shrinks w (w.setBus b x) := by
  refine ⟨rfl, ?_, ?_⟩
  · intro i; simp only [World.setBus]; split
    · subst_vars; exact hc
    · rfl
  · intro i; simp only [World.setBus]; split
    · subst_vars; exact hs
    · exact Nat.le_refl _

/-- Events of other threads that create nothing: the hierarchy does not grow, at most one message is queued. -/
theorem step_shrinks {σ σ' : St} {a : Act} (hr : a.isRun = false) (hc : a.creates = false) (h : step σ a = some σ') :
    Shrinks σ.w σ'.w ∧ σ'.w.queue.length = σ.w.queue.length + (if a.isPush then 1 else 0) ∧
    (σ'.phase = σ.phase ∨ (σ.phase = .off ∧ a = .start) ∨ (σ.phase = .asleep ∧ σ'.phase = .pred)) ∧
    ((σ'.w.bus 0).running = (σ.w.bus 0).running ∨ a = .stop 0 ∨ a = .start) := by
  cases a with
  | run c => cases hr
  | start =>
    simp only [step] at h
    cases hp : σ.phase <;> simp only [hp] at h <;> try contradiction
    cases h
    exact ⟨shrinks_setBus rfl (Nat.le_refl _), rfl, .inr (.inl ⟨rfl, rfl⟩), .inr (.inr rfl)⟩
  | startChild b =>
    simp only [step] at h; split at h <;> try contradiction
    rename_i hb
    cases h
    exact ⟨shrinks_setBus rfl (Nat.le_refl _), rfl, .inl rfl, .inl (by
      simp only [setRunning, World.setBus]; rw [if_neg (by omega)])⟩
  | stop b =>
    simp only [step] at h; split at h <;> try contradiction
    cases h
    refine ⟨shrinks_setBus rfl (Nat.le_refl _), rfl, .inl rfl, ?_⟩
    by_cases hb : b = 0
    · subst hb; exact .inr (.inl rfl)
    · exact .inl (by simp only [Bus.stop, World.setBus]; rw [if_neg (fun e => hb e.symm)])
  | publish b m =>
    simp only [step] at h; split at h <;> try contradiction
    cases h
    exact ⟨.refl _, rfl, .inl rfl, .inl rfl⟩
  | pubPublish p d =>
    simp only [step] at h; split at h <;> try contradiction
    cases h
    exact ⟨.refl _, rfl, .inl rfl, .inl rfl⟩
  | push i =>
    simp only [step] at h
    cases hi : σ.inflight[i]? with
    | none => simp only [hi] at h; contradiction
    | some m =>
      simp only [hi] at h
      cases h
      exact ⟨⟨rfl, fun _ => rfl, fun _ => Nat.le_refl _⟩, by simp [push, Act.isPush], .inl rfl, .inl rfl⟩
  | notify =>
    simp only [step] at h; split at h <;> try contradiction
    cases h
    refine ⟨.refl _, rfl, ?_, .inl rfl⟩
    simp only
    split
    · rename_i hp; exact .inr (.inr ⟨hp, rfl⟩)
    · exact .inl rfl
  | createChild b name => cases hc
  | createSub b t cb => cases hc
  | createPub b t =>
    simp only [step] at h; split at h <;> try contradiction
    cases h
    refine ⟨⟨rfl, ?_, ?_⟩, rfl, .inl rfl, .inl ?_⟩
    · intro i; simp only [createPublisher, outcome, World.setBus, World.setPub]; split
      · subst_vars; rfl
      · rfl
    · intro i; simp only [createPublisher, outcome, World.setBus, World.setPub]; split
      · subst_vars; exact Nat.le_refl _
      · exact Nat.le_refl _
    · simp only [createPublisher, outcome, World.setBus, World.setPub]; split
      · subst_vars; rfl
      · rfl
  | deleteSub b s =>
    simp only [step] at h; split at h <;> try contradiction
    cases h
    refine ⟨⟨rfl, ?_, ?_⟩, rfl, .inl rfl, .inl ?_⟩
    · intro i; simp only [deleteSubscriber, outcome, World.setBus, World.setSub]; split
      · subst_vars; rfl
      · rfl
    · intro i; simp only [deleteSubscriber, outcome, World.setBus, World.setSub]; split
      · subst_vars; exact List.length_filter_le _ _
      · exact Nat.le_refl _
    · simp only [deleteSubscriber, outcome, World.setBus, World.setSub]; split
      · subst_vars; rfl
      · rfl
  | deletePub b p =>
    simp only [step] at h; split at h <;> try contradiction
    cases h
    refine ⟨⟨rfl, ?_, ?_⟩, rfl, .inl rfl, .inl ?_⟩
    · intro i; simp only [deletePublisher, outcome, World.setBus, World.setPub]; split
      · subst_vars; rfl
      · rfl
    · intro i; simp only [deletePublisher, outcome, World.setBus, World.setPub]; split
      · subst_vars; exact Nat.le_refl _
      · exact Nat.le_refl _
    · simp only [deletePublisher, outcome, World.setBus, World.setPub]; split
      · subst_vars; rfl
      · rfl
  | setCb s cb =>
    simp only [step] at h; split at h <;> try contradiction
    cases h
    exact ⟨⟨rfl, fun _ => rfl, fun _ => Nat.le_refl _⟩, rfl, .inl rfl, .inl rfl⟩
  | detachOne b =>
    simp only [step] at h; split at h <;> try contradiction
    cases h
    refine ⟨shrinks_setBus rfl (Nat.le_refl _), rfl, .inl rfl, .inl ?_⟩
    simp only [Bus.detachOne, World.setBus]; split
    · subst_vars; rfl
    · rfl

/-! ## The bus thread -/

/-- Buses and subscribers are untouched by the bus thread itself. -/
theorem run_world {σ σ' : St} {c : Choice} (h : rstep c σ = some σ') :
    σ'.w.bus = σ.w.bus ∧ σ'.w.nb = σ.w.nb ∧ σ'.w.sub = σ.w.sub ∧ σ'.w.ns = σ.w.ns ∧ σ'.w.pub = σ.w.pub ∧
    σ'.published = σ.published ∧ σ'.inflight = σ.inflight := by
  unfold rstep at h
  split at h
  case h_11 =>
    rename_i m f st batch hp
    cases hd : dstep σ.w m (σ.fates.length - 1) (f :: st) with
    | mk st' od => cases od <;> simp only [hd] at h <;> cases h <;> exact ⟨rfl, rfl, rfl, rfl, rfl, rfl, rfl⟩
  case h_9 => split at h <;> cases h <;> exact ⟨rfl, rfl, rfl, rfl, rfl, rfl, rfl⟩
  all_goals first
    | (cases h; exact ⟨rfl, rfl, rfl, rfl, rfl, rfl, rfl⟩)
    | cases h

/-- Outside of `off` the bus thread can always take a step. -/
theorem run_enabled (σ : St) (h : σ.phase ≠ .off) : ∃ σ', rstep .go σ = some σ' := by
  cases hp : σ.phase with
  | off => exact absurd hp h
  | top => simp only [rstep, hp]; exact ⟨_, rfl⟩
  | pred => simp only [rstep, hp]; exact ⟨_, rfl⟩
  | drowsy => simp only [rstep, hp]; exact ⟨_, rfl⟩
  | asleep => simp only [rstep, hp]; exact ⟨_, rfl⟩
  | woken => simp only [rstep, hp]; exact ⟨_, rfl⟩
  | drain => simp only [rstep, hp]; exact ⟨_, rfl⟩
  | loop batch =>
    cases batch with
    | nil => simp only [rstep, hp]; exact ⟨_, rfl⟩
    | cons m batch =>
      simp only [rstep, hp]
      split <;> exact ⟨_, rfl⟩
  | visit m st cb batch =>
    cases cb with
    | true => simp only [rstep, hp]; exact ⟨_, rfl⟩
    | false =>
      cases st with
      | nil => simp only [rstep, hp]; exact ⟨_, rfl⟩
      | cons f st =>
        simp only [rstep, hp]
        cases hd : dstep σ.w m (σ.fates.length - 1) (f :: st) with
        | mk st' od => cases od <;> exact ⟨_, rfl⟩

/-- A step inside the batch: the work left decreases; outside of the batch the phase is one of the others. -/
theorem run_cases {σ σ' : St} {c : Choice} (hi : Inv σ) (h : rstep c σ = some σ') :
    (∃ m st cb b, σ.phase = .visit m st cb b ∧ σ'.phase = .off) ∨
    (((∃ b, σ.phase = .loop b ∧ b ≠ []) ∨ (∃ m st cb b, σ.phase = .visit m st cb b)) ∧
      ((∃ b, σ'.phase = .loop b) ∨ (∃ m st cb b, σ'.phase = .visit m st cb b)) ∧
      busy σ'.w σ'.phase < busy σ.w σ.phase ∧ σ'.w.queue = σ.w.queue) ∨
    (σ.phase = .loop [] ∧ σ'.phase = .top ∧ σ'.w.queue = σ.w.queue) ∨
    (σ.phase = .top ∧ σ'.phase = (if (σ.w.bus 0).running then .pred else .off) ∧ σ'.w.queue = σ.w.queue) ∨
    (σ.phase = .pred ∧ σ'.w.queue = σ.w.queue ∧
      σ'.phase = (if !σ.w.queue.isEmpty || !(σ.w.bus 0).running then .woken else .drowsy)) ∨
    (σ.phase = .drowsy ∧ σ'.phase = .asleep ∧ σ'.w.queue = σ.w.queue) ∨
    (σ.phase = .asleep ∧ (σ'.phase = .pred ∨ σ'.phase = .woken) ∧ σ'.w.queue = σ.w.queue) ∨
    (σ.phase = .woken ∧ σ'.phase = (if (σ.w.bus 0).running then .drain else .off) ∧ σ'.w.queue = σ.w.queue) ∨
    (σ.phase = .drain ∧ σ'.phase = .loop σ.w.queue ∧ σ'.w.queue = []) := by
  unfold rstep at h
  split at h
  · rename_i hp; cases h; right; right; right; left; exact ⟨hp, rfl, rfl⟩
  · rename_i hp; cases h; right; right; right; right; left; exact ⟨hp, rfl, rfl⟩
  · rename_i hp; cases h; right; right; right; right; right; left; exact ⟨hp, rfl, rfl⟩
  · rename_i hp; cases h; right; right; right; right; right; right; left; exact ⟨hp, .inl rfl, rfl⟩
  · rename_i hp; cases h; right; right; right; right; right; right; left; exact ⟨hp, .inr rfl, rfl⟩
  · rename_i hp; cases h; right; right; right; right; right; right; right; left; exact ⟨hp, rfl, rfl⟩
  · rename_i hp; cases h; right; right; right; right; right; right; right; right; exact ⟨hp, rfl, rfl⟩
  · rename_i hp; cases h; right; right; left; exact ⟨hp, rfl, rfl⟩
  · rename_i m batch hp
    right; left
    have hm : unit σ.w * (batch.length + 1) = unit σ.w * batch.length + unit σ.w := Nat.mul_succ _ _
    have hu : unit σ.w = cost σ.w 0 + 2 := rfl
    split at h
    · cases h
      refine ⟨.inl ⟨_, hp, by simp⟩, .inr ⟨_, _, _, _, rfl⟩, ?_, rfl⟩
      simp only [hp, busy, stCost, List.map_cons, List.map_nil, List.sum_cons, List.sum_nil, fcost, List.length_cons, hm]
      simp; omega
    · cases h
      refine ⟨.inl ⟨_, hp, by simp⟩, .inl ⟨_, rfl⟩, ?_, rfl⟩
      simp only [hp, busy, List.length_cons, hm]; omega
  · rename_i m batch hp; cases h
    right; left
    refine ⟨.inr ⟨_, _, _, _, hp⟩, .inl ⟨_, rfl⟩, ?_, rfl⟩
    simp only [hp, busy]; omega
  · rename_i m f st batch hp
    right; left
    have hst : ∀ g ∈ f :: st, g.Ok σ.w := by have := hi.stack.1; rw [hp] at this; exact this
    have hd := dstep_cost hi.wok (m := m) (i := σ.fates.length - 1) hst
    cases hds : dstep σ.w m (σ.fates.length - 1) (f :: st) with
    | mk st' od =>
      rw [hds] at hd
      cases od with
      | none =>
        simp only [hds] at h
        cases h
        refine ⟨.inr ⟨_, _, _, _, hp⟩, .inr ⟨_, _, _, _, rfl⟩, ?_, rfl⟩
        simp at hd
        simp only [hp, busy]; simp; omega
      | some d =>
        simp only [hds] at h
        cases h
        refine ⟨.inr ⟨_, _, _, _, hp⟩, .inr ⟨_, _, _, _, rfl⟩, ?_, rfl⟩
        simp at hd
        simp only [hp, busy]; simp; omega
  · rename_i m st batch hp; cases h
    right; left
    refine ⟨.inr ⟨_, _, _, _, hp⟩, .inr ⟨_, _, _, _, rfl⟩, ?_, rfl⟩
    simp only [hp, busy]; simp
  · rename_i m st batch hp; cases h
    left; exact ⟨_, _, _, _, hp, rfl⟩
  · cases h

theorem toExit_run {σ σ' : St} {c : Choice} (hi : Inv σ) (hs : (σ.w.bus 0).running = false) (h : rstep c σ = some σ') :
    toExit σ' < toExit σ := by
  have hw := run_world h
  have hu : unit σ'.w = unit σ.w := by
    unfold unit cost; rw [hw.2.1]
    have : ∀ n b, costF σ'.w n b = costF σ.w n b := by
      intro n; induction n with
      | zero => intro b; rfl
      | succ n ih => intro b; rw [costF, costF, hw.1]; simp [ih]
    rw [this]
  rcases run_cases hi h with ⟨m, st, cb, b, h1, h2⟩ | ⟨h1, h2, h3, h4⟩ | ⟨h1, h2, h3⟩ | ⟨h1, h2, h3⟩ | ⟨h1, h3, h2⟩ |
    ⟨h1, h2, h3⟩ | ⟨h1, h2, h3⟩ | ⟨h1, h2, h3⟩ | ⟨h1, h2, h3⟩
  · simp only [toExit, h1, h2]; omega
  · have e1 : toExit σ = 2 + busy σ.w σ.phase := by
      rcases h1 with ⟨b, h1, _⟩ | ⟨m, st, cb, b, h1⟩ <;> simp only [toExit, h1]
    have e2 : toExit σ' = 2 + busy σ'.w σ'.phase := by
      rcases h2 with ⟨b, h1⟩ | ⟨m, st, cb, b, h1⟩ <;> simp only [toExit, h1]
    omega
  · simp only [toExit, h1, h2]; omega
  · rw [hs] at h2; simp at h2; simp only [toExit, h1, h2]; omega
  · rw [hs] at h2; simp at h2; simp only [toExit, h1, h2]; omega
  · simp only [toExit, h1, h2]; omega
  · rcases h2 with h2 | h2 <;> simp only [toExit, h1, h2] <;> omega
  · rw [hs] at h2; simp at h2; simp only [toExit, h1, h2]; omega
  · simp only [toExit, h1, h2, busy, hu]; omega

theorem toExit_external {σ σ' : St} {a : Act} (hr : a.isRun = false) (hc : a.creates = false) (hst : a ≠ .start)
    (h : step σ a = some σ') : toExit σ' ≤ toExit σ + (if a.isPush then unit σ.w else 0) := by
  obtain ⟨hsh, hq, hp, _⟩ := step_shrinks hr hc h
  have hu := unit_shrinks hsh
  have hb := busy_shrinks hsh σ.phase
  rcases hp with hp | ⟨_, hp⟩ | ⟨h1, h2⟩
  · unfold toExit
    rw [hp]
    cases hph : σ.phase <;> simp only <;> try omega
    · rw [hq]
      by_cases hpu : a.isPush = true
      · simp only [hpu, if_true]
        have := Nat.mul_le_mul_right (σ.w.queue.length + 1) hu
        have hm : unit σ.w * (σ.w.queue.length + 1) = unit σ.w * σ.w.queue.length + unit σ.w := Nat.mul_succ _ _
        omega
      · simp only [hpu]
        have := Nat.mul_le_mul_right (σ.w.queue.length) hu
        simp; omega
    · rw [hph] at hb; omega
    · rw [hph] at hb; omega
  · exact absurd hp hst
  · simp only [toExit, h1, h2]; omega

theorem toDrain_run {σ σ' : St} {c : Choice} (hi : Inv σ) (hs : (σ.w.bus 0).running = true) (hq : σ.w.queue ≠ [])
    (hoff : σ'.phase ≠ .off) (h : rstep c σ = some σ') :
    σ'.w.queue = [] ∨ (toDrain σ' < toDrain σ ∧ σ'.w.queue = σ.w.queue) := by
  rcases run_cases hi h with ⟨m, st, cb, b, h1, h2⟩ | ⟨h1, h2, h3, h4⟩ | ⟨h1, h2, h3⟩ | ⟨h1, h2, h3⟩ | ⟨h1, h3, h2⟩ |
    ⟨h1, h2, h3⟩ | ⟨h1, h2, h3⟩ | ⟨h1, h2, h3⟩ | ⟨h1, h2, h3⟩
  · exact absurd h2 hoff
  · right
    have e1 : toDrain σ = 5 + busy σ.w σ.phase := by
      rcases h1 with ⟨b, h1, _⟩ | ⟨m, st, cb, b, h1⟩ <;> simp only [toDrain, h1]
    have e2 : toDrain σ' = 5 + busy σ'.w σ'.phase := by
      rcases h2 with ⟨b, h1⟩ | ⟨m, st, cb, b, h1⟩ <;> simp only [toDrain, h1]
    exact ⟨by omega, h4⟩
  · exact .inr ⟨by simp only [toDrain, h1, h2]; omega, h3⟩
  · rw [hs] at h2; simp at h2; exact .inr ⟨by simp only [toDrain, h1, h2]; omega, h3⟩
  · have : σ.w.queue.isEmpty = false := by simpa using hq
    rw [this] at h2; simp at h2; exact .inr ⟨by simp only [toDrain, h1, h2]; omega, h3⟩
  · exact .inr ⟨by simp only [toDrain, h1, h2]; omega, h3⟩
  · exact .inr ⟨by rcases h2 with h2 | h2 <;> simp only [toDrain, h1, h2] <;> omega, h3⟩
  · rw [hs] at h2; simp at h2; exact .inr ⟨by simp only [toDrain, h1, h2]; omega, h3⟩
  · exact .inl h3

theorem toDrain_external {σ σ' : St} {a : Act} (hr : a.isRun = false) (hc : a.creates = false) (hst : a ≠ .start)
    (h : step σ a = some σ') : toDrain σ' ≤ toDrain σ := by
  obtain ⟨hsh, hq, hp, _⟩ := step_shrinks hr hc h
  have hb := busy_shrinks hsh σ.phase
  rcases hp with hp | ⟨_, hp⟩ | ⟨h1, h2⟩
  · unfold toDrain
    rw [hp]
    cases hph : σ.phase <;> simp only <;> try omega
    · rw [hph] at hb; omega
    · rw [hph] at hb; omega
  · exact absurd hp hst
  · simp only [toDrain, h1, h2]; omega

end LP.Bus
