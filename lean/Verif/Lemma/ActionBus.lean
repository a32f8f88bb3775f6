import Verif.Spec.Action
import Verif.Lemma.BusMore
/-!
# How action events act on the bus
-/
namespace LP.Action
open LP.Bus (Delivery)

/-- A callback is running on the bus thread. -/
def inCb : Bus.Phase → Bool
  | .visit _ _ cb _ => cb
  | _ => false

/-- What a step of the bus thread does as far as callbacks are concerned. -/
theorem rstep_cases {c : Bus.Choice} {b b' : Bus.St} (h : Bus.rstep c b = some b') :
    b'.w.sub = b.w.sub ∧ b'.w.pub = b.w.pub ∧ b'.w.ns = b.w.ns ∧ b'.w.np = b.w.np ∧ b'.w.bus = b.w.bus ∧
    b'.inflight = b.inflight ∧ b'.published = b.published ∧
    ((inCb b.phase = true ∧ inCb b'.phase = false ∧ b'.log = b.log) ∨
     (inCb b.phase = false ∧ inCb b'.phase = false ∧ b'.log = b.log) ∨
     (inCb b.phase = false ∧ inCb b'.phase = true ∧ ∃ d, b'.log = b.log ++ [d] ∧ (b.w.sub d.sub).cb = some d.cb)) := by
  unfold Bus.rstep at h
  split at h
  case h_11 =>
    rename_i m f st batch hp
    cases hd : Bus.dstep b.w m (b.fates.length - 1) (f :: st) with
    | mk st' od =>
      cases od with
      | none => simp only [hd] at h; cases h; simp [hp, inCb]
      | some d =>
        simp only [hd] at h
        cases h
        have := Bus.dstep_delivery (w := b.w) (m := m) (i := b.fates.length - 1) (st := f :: st) (d := d) (by rw [hd])
        exact ⟨rfl, rfl, rfl, rfl, rfl, rfl, rfl, .inr (.inr ⟨by simp [hp, inCb], by simp [inCb], d, rfl, this.2.2.2.2⟩)⟩
  case h_9 => rename_i hp; split at h <;> cases h <;> simp [hp, inCb]
  case h_1 =>
    rename_i hp; cases h
    refine ⟨rfl, rfl, rfl, rfl, rfl, rfl, rfl, .inr (.inl ⟨by simp [hp, inCb], ?_, rfl⟩)⟩
    dsimp only; split <;> rfl
  case h_2 =>
    rename_i hp; cases h
    refine ⟨rfl, rfl, rfl, rfl, rfl, rfl, rfl, .inr (.inl ⟨by simp [hp, inCb], ?_, rfl⟩)⟩
    dsimp only; split <;> rfl
  case h_6 =>
    rename_i hp; cases h
    refine ⟨rfl, rfl, rfl, rfl, rfl, rfl, rfl, .inr (.inl ⟨by simp [hp, inCb], ?_, rfl⟩)⟩
    dsimp only; split <;> rfl
  case h_14 => cases h
  all_goals (rename_i hp; cases h; simp [hp, inCb])

/-- What client calls do to subscribers, publishers and the bus thread. -/
theorem client_cases {a : Bus.Act} {b b' : Bus.St} (hr : ∀ c, a ≠ .run c) (h : Bus.step b a = some b') :
    b.w.ns ≤ b'.w.ns ∧ b.w.np ≤ b'.w.np ∧ b'.log = b.log ∧ inCb b'.phase = inCb b.phase ∧
    (∀ s, s < b.w.ns → (∀ cb, a ≠ .setCb s cb) → (∀ i, a ≠ .deleteSub i s) → b'.w.sub s = b.w.sub s) ∧
    (∀ s k, (b'.w.sub s).cb = some k → (b.w.sub s).cb = some k ∨ a = .setCb s (some k) ∨
      ∃ i t, a = .createSub i t (some k) ∧ s = b.w.ns) ∧
    (∀ q, q < b.w.np → (∀ i, a ≠ .deletePub i q) → b'.w.pub q = b.w.pub q) := by
  cases a with
  | run c => exact absurd rfl (hr c)
  | start =>
    simp only [Bus.step] at h
    split at h <;> cases h
    rename_i hp
    simp [hp, inCb, Bus.setRunning, Bus.World.setBus]
  | push i =>
    simp only [Bus.step] at h
    split at h <;> cases h
    simp [Bus.push]
  | notify =>
    simp only [Bus.step] at h
    split at h <;> cases h
    simp
    split
    · rename_i hp; simp [hp, inCb]
    · rfl
  | createChild i name =>
    simp only [Bus.step] at h
    split at h <;> cases h
    simp only [Bus.createChildBus]
    split
    · simp [Bus.outcome]
    · split
      · simp [Bus.outcome]
      · split <;> simp [Bus.outcome, Bus.World.setBus]
  | createSub i t cb =>
    simp only [Bus.step] at h
    split at h <;> cases h
    refine ⟨by simp [Bus.createSubscriber, Bus.outcome, Bus.World.setBus, Bus.World.setSub],
      by simp [Bus.createSubscriber, Bus.outcome, Bus.World.setBus, Bus.World.setSub], rfl, rfl, ?_, ?_, ?_⟩
    · intro s hs _ _
      simp only [Bus.createSubscriber, Bus.outcome, Bus.World.setBus, Bus.World.setSub]
      rw [if_neg (by omega)]
    · intro s k
      simp only [Bus.createSubscriber, Bus.outcome, Bus.World.setBus, Bus.World.setSub]
      split
      · intro h; simp only at h; subst h; subst_vars; exact .inr (.inr ⟨_, _, rfl, rfl⟩)
      · exact .inl
    · intros; rfl
  | createPub i t =>
    simp only [Bus.step] at h
    split at h <;> cases h
    refine ⟨by simp [Bus.createPublisher, Bus.outcome, Bus.World.setBus, Bus.World.setPub],
      by simp [Bus.createPublisher, Bus.outcome, Bus.World.setBus, Bus.World.setPub], rfl, rfl, fun _ _ _ _ => rfl,
      fun _ _ => .inl, ?_⟩
    intro q hq _
    simp only [Bus.createPublisher, Bus.outcome, Bus.World.setBus, Bus.World.setPub]
    rw [if_neg (by omega)]
  | deleteSub i s =>
    simp only [Bus.step] at h
    split at h <;> cases h
    refine ⟨Nat.le_refl _, Nat.le_refl _, rfl, rfl, ?_, ?_, fun _ _ _ => rfl⟩
    · intro s' _ _ h2
      simp only [Bus.deleteSubscriber, Bus.outcome, Bus.World.setBus, Bus.World.setSub]
      rw [if_neg]
      rintro rfl; exact h2 i rfl
    · intro s' k
      simp only [Bus.deleteSubscriber, Bus.outcome, Bus.World.setBus, Bus.World.setSub]
      split
      · intro h; simp at h
      · exact .inl
  | deletePub i q =>
    simp only [Bus.step] at h
    split at h <;> cases h
    refine ⟨Nat.le_refl _, Nat.le_refl _, rfl, rfl, fun _ _ _ _ => rfl, fun _ _ => .inl, ?_⟩
    intro q' _ h2
    simp only [Bus.deletePublisher, Bus.outcome, Bus.World.setBus, Bus.World.setPub]
    rw [if_neg]
    rintro rfl; exact h2 i rfl
  | setCb s cb =>
    simp only [Bus.step] at h
    split at h <;> cases h
    refine ⟨Nat.le_refl _, Nat.le_refl _, rfl, rfl, ?_, ?_, fun _ _ _ => rfl⟩
    · intro s' _ h1 _
      simp only [Bus.setCallback, Bus.World.setSub]
      rw [if_neg]
      rintro rfl; exact h1 cb rfl
    · intro s' k
      simp only [Bus.setCallback, Bus.World.setSub]
      split
      · intro h; simp only at h; subst h; subst_vars; exact .inr (.inl rfl)
      · exact .inl
  | _ =>
    simp only [Bus.step] at h
    split at h <;> cases h
    simp [Bus.setRunning, Bus.stop, Bus.detachOne, Bus.World.setBus]

/-- The state after the running callback ended. -/
def endCb (σ : St) (b : Bus.St) (c : Bus.Choice) : St :=
  match σ.cur, c with
  | .answering k id _ _ _, .go => closeRequest { σ with bus := b, cur := .idle, inside := none } k id
  | .answering k id _ _ _, .throwing => { σ with bus := b, cur := .idle, inside := none, threw := σ.threw ++ [(k, id)] }
  | _, _ => { σ with bus := b, cur := .idle, inside := none }

theorem run_cases {σ σ' : St} {c : Bus.Choice} (h : run σ c = .to σ') :
    blocked σ = false ∧ ∃ b, Bus.rstep c σ.bus = some b ∧
    ((inCb σ.bus.phase = true ∧ inCb b.phase = false ∧ b.log = σ.bus.log ∧ mayEnd σ.cur c = true ∧ σ' = endCb σ b c) ∨
     (inCb σ.bus.phase = false ∧ inCb b.phase = false ∧ b.log = σ.bus.log ∧ σ' = { σ with bus := b }) ∨
     (inCb σ.bus.phase = false ∧ inCb b.phase = true ∧ ∃ d, b.log = σ.bus.log ++ [d] ∧
       (σ.bus.w.sub d.sub).cb = some d.cb ∧ σ' = dispatch { σ with bus := b } d)) := by
  unfold run at h
  cases hb : blocked σ with
  | true => simp [hb] at h
  | false =>
    refine ⟨rfl, ?_⟩
    simp only [hb, Bool.false_eq_true, if_false] at h
    cases hr : Bus.rstep c σ.bus with
    | none => simp [hr] at h
    | some b =>
      refine ⟨b, rfl, ?_⟩
      simp only [hr] at h
      have hc := (rstep_cases hr).2.2.2.2.2.2.2
      split at h
      case h_1 hp =>
        have hin : inCb σ.bus.phase = true := by rw [hp]; rfl
        rw [hin] at hc
        rcases hc with hc | hc | hc
        · refine .inl ⟨hin, hc.2.1, hc.2.2, ?_⟩
          split at h
          · rename_i hm
            refine ⟨hm, ?_⟩
            unfold endCb
            split at h <;> cases h <;> simp_all
          · cases h
        · exact absurd hc.1 (by simp)
        · exact absurd hc.1 (by simp)
      case h_2 hp =>
        have hin : inCb σ.bus.phase = false := by
          cases hph : σ.bus.phase <;> simp only [inCb]
          rename_i m st cb batch
          cases cb with
          | false => rfl
          | true => exact absurd hph (hp m st batch)
        rw [hin] at hc
        rcases hc with hc | hc | hc
        · exact absurd hc.1 (by simp)
        · refine .inr (.inl ⟨hin, hc.2.1, hc.2.2, ?_⟩)
          rw [hc.2.2] at h
          simp at h
          exact h.symm
        · obtain ⟨_, h2, d, h3, h4⟩ := hc
          refine .inr (.inr ⟨hin, h2, d, h3, h4, ?_⟩)
          rw [h3] at h
          simp at h
          exact h.symm

/-- The bus events of one action event. -/
theorem step_bus {σ σ' : St} {a : Act} (h : step σ a = .to σ') :
    ∃ l, Bus.exec σ.bus l = some σ'.bus ∧ l.length ≤ 1 ∧ (.run .throwing ∈ l → a = .run .throwing) := by
  have lifted : ∀ {x : Bus.Act} {k : Bus.St → St}, (∀ b, (k b).bus = b) → x ≠ .run .throwing →
      lift (Bus.step σ.bus x) k = .to σ' →
      ∃ l, Bus.exec σ.bus l = some σ'.bus ∧ l.length ≤ 1 ∧ (.run .throwing ∈ l → a = .run .throwing) := by
    intro x k hk hx h
    cases hs : Bus.step σ.bus x with
    | none => simp [lift, hs] at h
    | some b =>
      simp only [lift, hs] at h
      cases h
      refine ⟨[x], by simp [Bus.exec, hs, hk], Nat.le_refl _, fun h => ?_⟩
      simp only [List.mem_singleton] at h
      exact absurd h.symm hx
  have same : σ'.bus = σ.bus → ∃ l, Bus.exec σ.bus l = some σ'.bus ∧ l.length ≤ 1 ∧ (.run .throwing ∈ l → a = .run .throwing) :=
    fun h => ⟨[], by simp [Bus.exec, h], by simp, by simp⟩
  cases a with
  | bus a =>
    simp only [step] at h
    split at h
    · rename_i hc
      refine lifted (k := fun b => { σ with bus := b }) (fun _ => rfl) ?_ h
      rintro rfl; simp [clientMay] at hc
    · cases h
  | run c =>
    simp only [step] at h
    obtain ⟨_, b, hb, h | h | h⟩ := run_cases h
    · refine ⟨[.run c], ?_, Nat.le_refl _, ?_⟩
      · have : (endCb σ b c).bus = b := by unfold endCb; split <;> rfl
        simp only [Bus.exec, Bus.step, hb]; rw [h.2.2.2.2, this]
      · intro h; simp only [List.mem_singleton] at h; cases h; rfl
    · refine ⟨[.run c], ?_, Nat.le_refl _, ?_⟩
      · simp only [Bus.exec, Bus.step, hb]; rw [h.2.2.2]
      · intro h; simp only [List.mem_singleton] at h; cases h; rfl
    · obtain ⟨_, _, d, _, _, h⟩ := h
      refine ⟨[.run c], ?_, Nat.le_refl _, ?_⟩
      · have : (dispatch { σ with bus := b } d).bus = b := by
          unfold dispatch; split <;> try rfl
          · split <;> try rfl
            split <;> rfl
          · split <;> try rfl
            split <;> rfl
        simp only [Bus.exec, Bus.step, hb]; rw [h, this]
      · intro h; simp only [List.mem_singleton] at h; cases h; rfl
  | lambda =>
    simp only [step, lambda] at h
    split at h <;> try cases h
    split at h <;> try cases h
    split at h <;> try cases h
    split at h <;> try cases h
    split at h <;> cases h <;> exact same rfl
  | consumer q s topic =>
    simp only [step] at h
    split at h <;> try cases h
    exact lifted (x := .setCb s (some (3 * σ.cons.length + 1))) (fun _ => rfl) (by simp) h
  | provider q s topic cb =>
    simp only [step] at h
    split at h <;> try cases h
    exact lifted (x := .setCb q (some (3 * σ.provs.length + 2))) (fun _ => rfl) (by simp) h
  | resetProvider p => cases h; exact same rfl
  | request c id k t =>
    simp only [step] at h
    split at h <;> cases h
    exact same rfl
  | begin c id t onBus =>
    simp only [step] at h
    split at h <;> try cases h
    split at h <;> cases h
    exact same rfl
  | send i =>
    simp only [step] at h
    split at h <;> try cases h
    split at h <;> try cases h
    exact lifted (fun _ => rfl) (by simp) h
  | respond p id t =>
    simp only [step] at h
    split at h <;> try cases h
    exact lifted (fun _ => rfl) (by simp) h
  | wait n =>
    simp only [step] at h
    split at h <;> try cases h
    split at h <;> cases h <;> exact same rfl
  | timeout n =>
    simp only [step] at h
    split at h <;> try cases h
    split at h <;> cases h
    exact same rfl

end LP.Action
