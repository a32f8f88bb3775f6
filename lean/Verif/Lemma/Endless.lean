import Verif.Spec.Endless
import Verif.Lemma.BusMore
import Verif.Lemma.BusLive
/-!
# The bus thread makes progress
-/
namespace LP.Bus

/-! ## What is left of a distribution, however many subscribers there are -/

/-- The hierarchy without its subscribers. -/
def bare (w : World) : World := { w with bus := fun b => { w.bus b with subs := [] } }

theorem bare_ok {w : World} (hw : WOk w) : WOk (bare w) :=
  ⟨hw.root, hw.sorted, hw.child, hw.nodup, hw.parent, hw.named, fun _ => List.nodup_nil,
    fun b s h => by simp [bare] at h, hw.home⟩

/-- A frame without the subscribers left in it. -/
def Frame.bare : Frame → Frame
  | .subs b _ => .subs b []
  | f => f

/-- The work left on the call stack, not counting subscribers. -/
def weight (w : World) (st : List Frame) : Nat := stCost (Bus.bare w) (st.map Frame.bare)

theorem weight_cons (w : World) (f : Frame) (st : List Frame) :
    weight w (f :: st) = fcost (Bus.bare w) f.bare + weight w st := by
  simp [weight, stCost_cons]

theorem dstep_weight {w : World} (hw : WOk w) {m : BMsg} {i : Nat} {f : Frame} {st : List Frame} (h : f.Ok w) :
    (weight w (dstep w m i (f :: st)).1 < weight w (f :: st) ∧ (dstep w m i (f :: st)).2 = none) ∨
    (weight w (dstep w m i (f :: st)).1 = weight w (f :: st) ∧
      ∃ b s rest, f = .subs b (s :: rest) ∧ (dstep w m i (f :: st)).1 = .subs b rest :: st) := by
  cases f with
  | want b =>
    have h1 := cost_ge (bare_ok hw) (b := b) h
    left
    simp only [dstep, weight_cons, Frame.bare, fcost]
    simp only [Bus.bare, List.length_nil, Nat.mul_zero, Nat.add_zero] at h1 ⊢
    exact ⟨by omega, trivial⟩
  | gap b => left; simp only [dstep, weight_cons, Frame.bare, fcost, Bus.bare]; exact ⟨by omega, trivial⟩
  | subs b rest =>
    cases rest with
    | nil => left; simp only [dstep, weight_cons, Frame.bare, fcost]; simp
    | cons s rest => right; simp only [dstep, weight_cons, Frame.bare]; exact ⟨trivial, b, s, rest, rfl, rfl⟩
  | kids b rest =>
    left
    cases rest with
    | nil => simp only [dstep, weight_cons, Frame.bare, fcost]; simp; omega
    | cons c rest =>
      simp only [dstep]
      split <;> simp only [weight_cons, Frame.bare, fcost, kidsCost_cons] <;> simp <;> omega

theorem weight_congr {w w' : World} (hn : w'.nb = w.nb) (hk : ∀ b, (w'.bus b).children = (w.bus b).children)
    (st : List Frame) : weight w' st = weight w st := by
  have h1 : Shrinks (bare w) (bare w') := ⟨hn, hk, fun _ => Nat.le_refl _⟩
  have h2 : Shrinks (bare w') (bare w) := ⟨hn.symm, fun b => (hk b).symm, fun _ => Nat.le_refl _⟩
  exact Nat.le_antisymm (stCost_shrinks h1 _) (stCost_shrinks h2 _)

/-- Nothing but the creation of child buses changes the shape of the hierarchy. -/
theorem step_shape {σ σ' : St} {a : Act} (ha : ∀ b name, a ≠ .createChild b name) (h : step σ a = some σ') :
    σ'.w.nb = σ.w.nb ∧ ∀ b, (σ'.w.bus b).children = (σ.w.bus b).children := by
  by_cases hr : ∃ c, a = .run c
  · obtain ⟨c, rfl⟩ := hr
    have := run_world h
    exact ⟨this.2.1, fun b => by rw [this.1]⟩
  · have hra : a.isRun = false := by cases a <;> first | rfl | exact absurd ⟨_, rfl⟩ hr
    by_cases hc : a.creates = false
    · have := (step_shrinks hra hc h).1
      exact ⟨this.nb, this.kids⟩
    · cases a <;> try (exact absurd rfl hc)
      · exact absurd rfl (ha _ _)
      · simp only [step] at h
        split at h <;> try contradiction
        cases h
        refine ⟨rfl, fun b => ?_⟩
        simp only [outcome, createSubscriber, World.setBus, World.setSub]
        split
        · subst_vars; rfl
        · rfl

/-! ## The rank -/

/-- How far the bus thread is from the next message, as to the shape of the hierarchy. -/
def far (w : World) : Phase → Nat
  | .off => 0
  | .loop (_ :: _) => 0
  | .drain => 1
  | .woken => 2
  | .pred => 3
  | .asleep => 4
  | .drowsy => 5
  | .top => 6
  | .loop [] => 7
  | .visit _ st _ _ => 8 + weight w st

/-- Subscribers still to be visited on the bus in hand. -/
def near : Phase → Nat
  | .visit _ (.subs _ rest :: _) cb _ => 2 * rest.length + (if cb then 1 else 0)
  | .visit _ _ cb _ => if cb then 1 else 0
  | _ => 0

/-- A measure, compared lexicographically. -/
abbrev Rank := Nat × Nat × Nat

/-- Message `i` has to wait for this. -/
def rank (i : Nat) (σ : St) : Rank := (i + 1 - σ.fates.length, far σ.w σ.phase, near σ.phase)

/-- The order of ranks. -/
def Less : Rank → Rank → Prop := Prod.Lex (· < ·) (Prod.Lex (· < ·) (· < ·))

theorem less_wf : WellFounded Less :=
  (Prod.lex Nat.lt_wfRel (Prod.lex Nat.lt_wfRel Nat.lt_wfRel)).wf

theorem less_first {a b : Nat} {x y : Nat × Nat} (h : a < b) : Less (a, x) (b, y) := Prod.Lex.left _ _ h
theorem less_second {a b c : Nat} {x y : Nat} (h : b < c) : Less (a, b, x) (a, c, y) := Prod.Lex.right _ (Prod.Lex.left _ _ h)
theorem less_third {a b c d : Nat} (h : c < d) : Less (a, b, c) (a, b, d) := Prod.Lex.right _ (Prod.Lex.right _ h)

/-- A message not yet taken up is in the batch or in the queue. -/
theorem waits {σ : St} (hi : Inv σ) {i : Nat} (h1 : i < σ.published.length) (h2 : σ.fates.length ≤ i)
    (hb : σ.phase.batch = []) : σ.w.queue ≠ [] := by
  have := hi.count
  rw [hb] at this
  intro e
  rw [e] at this
  simp at this
  omega

/-- A step of the bus thread brings message `i` nearer. -/
theorem run_less {i : Nat} {σ σ' : St} {c : Choice} (hi : Inv σ) (hr : (σ.w.bus 0).running = true) (hc : c ≠ .throwing)
    (h1 : i < σ.published.length) (hn : ¬DealtWith i σ) (h : rstep c σ = some σ') :
    Less (rank i σ') (rank i σ) ∧ σ'.phase ≠ .off := by
  have hw := run_world h
  have hwt : ∀ st, weight σ'.w st = weight σ.w st := weight_congr hw.2.1 (fun b => by rw [hw.1])
  have early : ∀ p, σ.phase = p → (∀ m st cb b, p ≠ .visit m st cb b) → σ.fates.length ≤ i := by
    intro p hp hv
    refine Nat.le_of_not_lt (fun hlt => hn ⟨hlt, fun m st cb b e => hv m st cb b (hp.symm.trans e)⟩)
  unfold rstep at h
  split at h
  · rename_i hp; rw [if_pos hr] at h; cases h
    exact ⟨by simp only [rank, hp, far]; exact less_second (by omega), by simp⟩
  · rename_i hp
    have hq := waits hi h1 (early _ hp (fun _ _ _ _ e => by cases e)) (by rw [hp]; rfl)
    have : σ.w.queue.isEmpty = false := by simpa using hq
    rw [if_pos (by simp [this])] at h; cases h
    exact ⟨by simp only [rank, hp, far]; exact less_second (by omega), by simp⟩
  · rename_i hp; cases h
    exact ⟨by simp only [rank, hp, far]; exact less_second (by omega), by simp⟩
  · rename_i hp; cases h
    exact ⟨by simp only [rank, hp, far]; exact less_second (by omega), by simp⟩
  · rename_i hp; cases h
    exact ⟨by simp only [rank, hp, far]; exact less_second (by omega), by simp⟩
  · rename_i hp; rw [if_pos hr] at h; cases h
    exact ⟨by simp only [rank, hp, far]; exact less_second (by omega), by simp⟩
  · rename_i hp
    have hq := waits hi h1 (early _ hp (fun _ _ _ _ e => by cases e)) (by rw [hp]; rfl)
    cases hqq : σ.w.queue with
    | nil => exact absurd hqq hq
    | cons m q =>
      rw [hqq] at h; cases h
      exact ⟨by simp only [rank, hp, far]; exact less_second (by omega), by simp⟩
  · rename_i hp; cases h
    exact ⟨by simp only [rank, hp, far]; exact less_second (by omega), by simp⟩
  · rename_i m batch hp
    have he := early _ hp (fun _ _ _ _ e => by cases e)
    rw [if_pos hr] at h; cases h
    exact ⟨less_first (by simp; omega), by simp⟩
  · rename_i m batch hp; cases h
    refine ⟨?_, by simp⟩
    simp only [rank, hp, far]
    refine less_second ?_
    cases batch <;> simp only <;> omega
  · rename_i m f st batch hp
    have hok : f.Ok σ.w := by
      have := hi.stack.1 f; rw [hp] at this; exact this (by simp [Phase.stack])
    have hd := dstep_weight hi.wok (m := m) (i := σ.fates.length - 1) (st := st) hok
    cases hds : dstep σ.w m (σ.fates.length - 1) (f :: st) with
    | mk st' od =>
      rw [hds] at hd
      rcases hd with ⟨hd1, hd2⟩ | ⟨hd1, b, s, rest, hf, hd2⟩
      · simp only at hd1 hd2
        subst hd2
        simp only [hds] at h; cases h
        refine ⟨?_, by simp⟩
        simp only [rank, hp, far]
        exact less_second (by omega)
      · simp only at hd1 hd2
        subst hd2; subst hf
        cases od <;> simp only [hds] at h <;> cases h <;> refine ⟨?_, by simp⟩ <;> simp only [rank, hp, far, hd1]
        · exact less_third (by simp [near])
        · exact less_third (by simp [near]; omega)
  · rename_i m st batch hp; cases h
    refine ⟨?_, by simp⟩
    simp only [rank, hp, far]
    refine less_third ?_
    cases st with
    | nil => simp [near]
    | cons f st => cases f <;> simp [near]
  · exact absurd rfl hc
  · cases h

/-- Other threads do not push it back. -/
theorem other_less {i : Nat} {σ σ' : St} {a : Act} (hi : Inv σ) (ho : σ.phase ≠ .off) (hr : ∀ c, a ≠ .run c)
    (ha : ∀ b name, a ≠ .createChild b name) (h : step σ a = some σ') :
    (Less (rank i σ') (rank i σ) ∨ rank i σ' = rank i σ) ∧ σ'.phase ≠ .off := by
  have hx := step_external hi.wok hr h
  have hs := step_shape ha h
  have hwt := weight_congr hs.1 hs.2
  rcases hx.phase with hp | ⟨hp, _⟩ | ⟨hp, hp'⟩
  · refine ⟨.inr ?_, by rw [hp]; exact ho⟩
    simp only [rank, hx.fates, hp]
    congr 2
    cases hph : σ.phase <;> simp only [far, hwt]
  · exact absurd hp ho
  · refine ⟨.inl ?_, by rw [hp']; simp⟩
    simp only [rank, hx.fates, hp, hp', far]
    exact less_second (by omega)

/-! ## Endless executions -/

theorem Endless.inv {ρ : Endless} (h : Reachable (ρ.st 0)) (n : Nat) : Inv (ρ.st n) := by
  induction n with
  | zero => exact h.inv
  | succ n ih => exact inv_step ih (ρ.ok n)

theorem Endless.published {ρ : Endless} (h : Reachable (ρ.st 0)) {n m : Nat} (hm : n ≤ m) :
    (ρ.st n).published <+: (ρ.st m).published := by
  induction hm with
  | refl => exact List.prefix_refl _
  | step _ ih =>
    rename_i m _
    refine ih.trans ?_
    by_cases hr : ∃ c, ρ.act m = .run c
    · obtain ⟨c, hc⟩ := hr
      have := ρ.ok m
      rw [hc] at this
      rw [(run_world this).2.2.2.2.2.1]
      exact List.prefix_refl _
    · obtain ⟨ms, hq, _⟩ := (step_external (Endless.inv h m).wok (fun c e => hr ⟨c, e⟩) (ρ.ok m)).queue
      rw [hq]; exact List.prefix_append _ _

/-- The execution of the moments `n`, …, `n + k - 1`. -/
def Endless.cut (ρ : Endless) (n k : Nat) : List Act := (List.range' n k).map ρ.act

theorem Endless.exec_cut (ρ : Endless) (n k : Nat) : exec (ρ.st n) (ρ.cut n k) = some (ρ.st (n + k)) := by
  induction k generalizing n with
  | zero => rfl
  | succ k ih =>
    show exec (ρ.st n) (ρ.act n :: ρ.cut (n + 1) k) = _
    simp only [exec, ρ.ok n, ih]
    congr 2; omega

theorem Endless.throughout_cut (ρ : Endless) (P : St → Prop) (n k : Nat) (h : ∀ m, n ≤ m → P (ρ.st m)) :
    Throughout P (ρ.st n) (ρ.cut n k) := by
  induction k generalizing n with
  | zero => exact h n (Nat.le_refl _)
  | succ k ih =>
    refine ⟨h n (Nat.le_refl _), fun σ' hs => ?_⟩
    have := ρ.ok n
    rw [this] at hs
    cases hs
    exact ih (n + 1) (fun m hm => h m (by omega))

/-- Every message in the queue is dealt with at some time. -/
theorem dealt {ρ : Endless} (h : Reachable (ρ.st 0)) (hf : ρ.Fair) {T : Nat} (hT : ρ.NoNewBuses T) (ht : ρ.NoThrow)
    {i : Nat} : ∀ n, T ≤ n → (∀ m, n ≤ m → ((ρ.st m).w.bus 0).running = true) → (ρ.st n).phase ≠ .off →
    i < (ρ.st n).published.length → ∃ m, n ≤ m ∧ DealtWith i (ρ.st m) := by
  suffices H : ∀ r : Rank, ∀ n, rank i (ρ.st n) = r → T ≤ n → (∀ m, n ≤ m → ((ρ.st m).w.bus 0).running = true) →
      (ρ.st n).phase ≠ .off → i < (ρ.st n).published.length → ∃ m, n ≤ m ∧ DealtWith i (ρ.st m) from
    fun n => H _ n rfl
  intro r
  induction r using less_wf.induction with
  | _ r ih =>
    intro n hrank hn hrun hoff hpub
    obtain ⟨m, hm, c, hc⟩ := hf n
    obtain ⟨d, rfl⟩ : ∃ d, m = n + d := ⟨m - n, by omega⟩
    clear hm
    induction d generalizing n with
    | zero =>
      by_cases hd : DealtWith i (ρ.st n)
      · exact ⟨n, Nat.le_refl _, hd⟩
      have hs := ρ.ok n
      rw [Nat.add_zero] at hc
      rw [hc] at hs
      have hx := run_less (Endless.inv h n) (hrun n (Nat.le_refl _)) (fun e => ht n (by rw [hc, e])) hpub hd hs
      obtain ⟨m, hm, hd⟩ := ih _ (hrank ▸ hx.1) (n + 1) rfl (by omega) (fun m hm => hrun m (by omega)) hx.2
        (Nat.lt_of_lt_of_le hpub (Endless.published h (Nat.le_succ n)).length_le)
      exact ⟨m, by omega, hd⟩
    | succ d ihd =>
      by_cases hd : DealtWith i (ρ.st n)
      · exact ⟨n, Nat.le_refl _, hd⟩
      have hs := ρ.ok n
      have hpub' := Nat.lt_of_lt_of_le hpub (Endless.published h (Nat.le_succ n)).length_le
      by_cases hr : ∃ c, ρ.act n = .run c
      · obtain ⟨c', hc'⟩ := hr
        rw [hc'] at hs
        have hx := run_less (Endless.inv h n) (hrun n (Nat.le_refl _)) (fun e => ht n (by rw [hc', e])) hpub hd hs
        obtain ⟨m, hm, hd⟩ := ih _ (hrank ▸ hx.1) (n + 1) rfl (by omega) (fun m hm => hrun m (by omega)) hx.2 hpub'
        exact ⟨m, by omega, hd⟩
      · have hx := other_less (i := i) (Endless.inv h n) hoff (fun c e => hr ⟨c, e⟩) (hT n hn) hs
        rcases hx.1 with hl | he
        · obtain ⟨m, hm, hd⟩ := ih _ (hrank ▸ hl) (n + 1) rfl (by omega) (fun m hm => hrun m (by omega)) hx.2 hpub'
          exact ⟨m, by omega, hd⟩
        · obtain ⟨m, hm, hd⟩ := ihd (n + 1) (he.trans hrank) (by omega) (fun m hm => hrun m (by omega)) hx.2 hpub'
            (by rw [← hc]; congr 1; omega)
          exact ⟨m, by omega, hd⟩

/-- A running bus whose callbacks do not throw stays in `Run`. -/
theorem on_step {σ σ' : St} {a : Act} (hi : Inv σ) (hr : (σ.w.bus 0).running = true) (ht : a ≠ .run .throwing)
    (ho : σ.phase ≠ .off) (h : step σ a = some σ') : σ'.phase ≠ .off := by
  by_cases hc : ∃ c, a = .run c
  · obtain ⟨c, rfl⟩ := hc
    intro e
    rcases run_cases hi h with ⟨m, st, cb, b, h1, h2⟩ | ⟨h1, h2, h3, h4⟩ | ⟨h1, h2, h3⟩ | ⟨h1, h2, h3⟩ | ⟨h1, h3, h2⟩ |
      ⟨h1, h2, h3⟩ | ⟨h1, h2, h3⟩ | ⟨h1, h2, h3⟩ | ⟨h1, h2, h3⟩
    · simp only [step, rstep, h1] at h
      cases st <;> cases cb <;> cases c <;> simp at h
      · subst h; cases e
      · subst h; cases e
      · exact ht rfl
      · split at h <;> (cases h; cases e)
      · subst h; cases e
      · exact ht rfl
    · rcases h2 with ⟨b, h2⟩ | ⟨m, st, cb, b, h2⟩ <;> rw [h2] at e <;> cases e
    · rw [h2] at e; cases e
    · rw [h2, if_pos hr] at e; cases e
    · rw [h2] at e; split at e <;> cases e
    · rw [h2] at e; cases e
    · rcases h2 with h2 | h2 <;> rw [h2] at e <;> cases e
    · rw [h2, if_pos hr] at e; cases e
    · rw [h2] at e; cases e
  · rcases (step_external hi.wok (fun c e => hc ⟨c, e⟩) h).phase with h1 | ⟨h1, _⟩ | ⟨_, h1⟩
    · rw [h1]; exact ho
    · exact absurd h1 ho
    · rw [h1]; simp

theorem Endless.on {ρ : Endless} (h : Reachable (ρ.st 0)) (ht : ρ.NoThrow) {n m : Nat} (hm : n ≤ m)
    (hr : ∀ m, n ≤ m → ((ρ.st m).w.bus 0).running = true) (ho : (ρ.st n).phase ≠ .off) : (ρ.st m).phase ≠ .off := by
  induction hm with
  | refl => exact ho
  | step hle ih => exact on_step (Endless.inv h _) (hr _ hle) (ht _) ih (ρ.ok _)

theorem published_step {σ σ' : St} {a : Act} (hp : ∀ i, a ≠ .push i) (h : step σ a = some σ') : σ'.published = σ.published := by
  cases a with
  | push i => exact absurd rfl (hp i)
  | run c => exact (run_world h).2.2.2.2.2.1
  | _ =>
    simp only [step] at h
    split at h <;> first
      | contradiction
      | (cases h; rfl)

/-- A bus that has dealt with everything stays so until something is published. -/
theorem rest_step {σ σ' : St} {a : Act} (hi : Inv σ) (hp : ∀ i, a ≠ .push i) (he : Idle σ) (h : step σ a = some σ') :
    Idle σ' := by
  by_cases hc : ∃ c, a = .run c
  · obtain ⟨c, rfl⟩ := hc
    obtain ⟨hq, hb, hv⟩ := he
    rcases run_cases hi h with ⟨m, st, cb, b, h1, h2⟩ | ⟨h1, h2, h3, h4⟩ | ⟨h1, h2, h3⟩ | ⟨h1, h2, h3⟩ | ⟨h1, h3, h2⟩ |
      ⟨h1, h2, h3⟩ | ⟨h1, h2, h3⟩ | ⟨h1, h2, h3⟩ | ⟨h1, h2, h3⟩
    · exact absurd h1 (hv _ _ _ _)
    · rcases h1 with ⟨b, h1, h5⟩ | ⟨m, st, cb, b, h1⟩
      · rw [h1] at hb; exact absurd hb h5
      · exact absurd h1 (hv _ _ _ _)
    · exact ⟨h3.trans hq, by rw [h2]; rfl, by rw [h2]; simp⟩
    · refine ⟨h3.trans hq, ?_, ?_⟩ <;> rw [h2] <;> split <;> simp [Phase.batch]
    · refine ⟨h3.trans hq, ?_, ?_⟩ <;> rw [h2] <;> split <;> simp [Phase.batch]
    · exact ⟨h3.trans hq, by rw [h2]; rfl, by rw [h2]; simp⟩
    · rcases h2 with h2 | h2 <;> exact ⟨h3.trans hq, by rw [h2]; rfl, by rw [h2]; simp⟩
    · refine ⟨h3.trans hq, ?_, ?_⟩ <;> rw [h2] <;> split <;> simp [Phase.batch]
    · exact ⟨h3, by rw [h2, hq]; rfl, by rw [h2]; simp⟩
  · have hx := step_external hi.wok (fun c e => hc ⟨c, e⟩) h
    obtain ⟨hq, hb, hv⟩ := he
    refine ⟨?_, by rw [hx.batch]; exact hb, ?_⟩
    · by_cases hcr : a.creates = false
      · have hra : a.isRun = false := by cases a <;> first | rfl | exact absurd ⟨_, rfl⟩ hc
        have := (step_shrinks hra hcr h).2.1
        have hpu : a.isPush = false := by cases a <;> first | rfl | exact absurd rfl (hp _)
        rw [hq, hpu] at this
        simpa using this
      · have : σ'.published = σ.published := by
          cases a <;> try (exact absurd rfl hcr)
          all_goals
            simp only [step] at h
            split at h <;> try contradiction
            cases h
            rfl
        obtain ⟨ms, h1, h2⟩ := hx.queue
        rw [this] at h1
        have : ms = [] := by simpa using h1.symm
        rw [h2, this, hq]; rfl
    · rcases hx.phase with h1 | ⟨_, h1⟩ | ⟨_, h1⟩
      · rw [h1]; exact hv
      · rw [h1]; simp
      · rw [h1]; simp

end LP.Bus
