import Verif.Lemma.ActionMore
/-!
# Blocking calls: when they end
-/
namespace LP.Action
open LP.Bus (Delivery)

/-- What one event does to one blocking call: nothing, it goes on, or it ends. -/
theorem frame_step {σ σ' : St} {a : Act} (hk : Calls σ) (hs : step σ a = .to σ') {n : Nat} {f : Frame} (hf : σ.frames[n]? = some f) :
    ∃ f', σ'.frames[n]? = some f' ∧ (f' = f ∨ (f.pc ≠ .done ∧ f'.pc ≠ .done) ∨
      (f.pc ≠ .done ∧ f' = finish f ∧ σ'.evs = σ.evs ∧ σ'.cur = σ.cur ∧ σ'.inside = σ.inside ∧
        (a = .timeout n ∨ a = .wait n ∧ f.waiting = false))) := by
  have same : ∀ {τ : St}, τ.frames = σ.frames → ∃ f', τ.frames[n]? = some f' ∧ (f' = f ∨ (f.pc ≠ .done ∧ f'.pc ≠ .done) ∨
      (f.pc ≠ .done ∧ f' = finish f ∧ τ.evs = σ.evs ∧ τ.cur = σ.cur ∧ τ.inside = σ.inside ∧
        (a = .timeout n ∨ a = .wait n ∧ f.waiting = false))) :=
    fun e => ⟨f, by rw [e]; exact hf, .inl rfl⟩
  have upd : ∀ {τ : St} {m : Nat} {g g' : Frame}, σ.frames[m]? = some g → τ.frames = σ.frames.set m g' → g.pc ≠ .done → g'.pc ≠ .done →
      ∃ f', τ.frames[n]? = some f' ∧ (f' = f ∨ (f.pc ≠ .done ∧ f'.pc ≠ .done) ∨
      (f.pc ≠ .done ∧ f' = finish f ∧ τ.evs = σ.evs ∧ τ.cur = σ.cur ∧ τ.inside = σ.inside ∧
        (a = .timeout n ∨ a = .wait n ∧ f.waiting = false))) := by
    intro τ m g g' hg e h1 h2
    refine ⟨_, by rw [e]; exact set_getElem? hf, ?_⟩
    split
    · rename_i e'; subst e'
      rw [hg] at hf; cases hf
      exact .inr (.inl ⟨h1, h2⟩)
    · exact .inl rfl
  cases step_eff hs with
  | client a b h1 h2 => exact same rfl
  | endCb c b h1 h2 h3 h4 h5 h6 => exact same (endCb_same σ b c).2.2.2.1
  | quiet c b h1 h2 h3 h4 h5 => exact same rfl
  | deliver c b d h1 h2 h3 h4 h5 h6 => exact same (dispatch_same { σ with bus := b } d).2.2.2.2.1
  | test c id m t g h1 h2 h3 => exact same rfl
  | store c id m t g h1 h2 h3 => exact upd h2 rfl h3 h3
  | flag c id m t g h1 h2 h3 => exact upd h2 rfl h3 h3
  | wake c id m t g h1 h2 h3 =>
    refine upd h2 rfl h3 ?_
    simp only
    split
    · decide
    · exact h3
  | consumer q s topic b h1 h2 h3 h4 h5 h6 h7 h8 h9 h10 h11 => exact same rfl
  | provider s q topic cb b h1 h2 h3 h4 h5 h6 h7 h8 h9 h10 h11 => exact same rfl
  | reset p => exact same rfl
  | request c id k t x hx => exact same rfl
  | begin c id t onBus x hx ho => exact ⟨f, getElem?_append_old hf, .inl rfl⟩
  | send i p x b h1 h2 h3 =>
    cases hp : p.frame with
    | none => exact ⟨f, by exact hf, .inl rfl⟩
    | some m =>
      refine ⟨_, by exact modify_getElem? hf, ?_⟩
      split
      · rename_i e; subst e
        obtain ⟨g, g1, g2, _⟩ := hk.pend p (List.mem_of_getElem? h1) _ hp
        rw [hf] at g1; cases g1
        exact .inr (.inl ⟨by rw [g2]; decide, by simp⟩)
      · exact .inl rfl
  | respond p id t x b h1 h2 => exact same rfl
  | look m g h1 h2 h3 => exact upd h1 rfl (by rw [h2]; decide) (by simp)
  | leave m g h1 h2 h3 =>
    refine ⟨_, set_getElem? hf, ?_⟩
    split
    · rename_i e; subst e
      rw [h1] at hf; cases hf
      exact .inr (.inr ⟨by rw [h2]; decide, rfl, rfl, rfl, rfl, .inr ⟨rfl, h3⟩⟩)
    · exact .inl rfl
  | sleep m g h1 h2 => exact upd h1 rfl (by rw [h2]; decide) (by simp)
  | spurious m g h1 h2 => exact upd h1 rfl (by rw [h2]; decide) (by simp)
  | timeout m g h1 h2 =>
    refine ⟨_, set_getElem? hf, ?_⟩
    split
    · rename_i e; subst e
      rw [h1] at hf; cases hf
      exact .inr (.inr ⟨by rw [h2]; decide, rfl, rfl, rfl, rfl, .inl rfl⟩)
    · exact .inl rfl

theorem done_kept {σ σ' : St} {as : List Act} (h : Reachable σ) (he : exec σ as = .to σ') {n : Nat} {f : Frame}
    (hf : σ.frames[n]? = some f) (hd : f.pc = .done) : σ'.frames[n]? = some f := by
  induction as generalizing σ with
  | nil => cases he; exact hf
  | cons a as ih =>
    obtain ⟨τ, h1, h2⟩ := exec_cons he
    obtain ⟨f', hf', e | ⟨e, _⟩ | ⟨e, _⟩⟩ := frame_step h.calls h1 hf
    · subst e; exact ih (h.step h1) h2 hf'
    · exact absurd hd e
    · exact absurd hd e

/-- A started `Request` can go on to the wait. -/
theorem can_send {σ : St} (h : Reachable σ) {n : Nat} {f : Frame} (hf : σ.frames[n]? = some f) (hp : f.pc = .sending) :
    ∃ i σ' f', step σ (.send i) = .to σ' ∧ σ'.frames[n]? = some f' ∧ f'.pc = .check ∧ f'.waiting = f.waiting := by
  obtain ⟨p, hp1, hp2⟩ := h.calls.sending n f hf hp
  obtain ⟨i, hi⟩ := List.mem_iff_getElem?.1 hp1
  obtain ⟨a, ha, e1, _⟩ := h.pendAsked p hp1
  obtain ⟨_, x, hx⟩ := h.hist.seen a ha
  rw [e1] at hx
  have hnp := (h.own.cons _ _ hx).pub
  refine ⟨i, _, { f with pc := .check }, by simp only [step, hi, hx, Bus.step, if_pos hnp, lift]; rfl, by simp only [hp2]; rw [modify_getElem? hf, if_pos rfl], rfl, rfl⟩

theorem can_finish {σ : St} {n : Nat} {f : Frame} (hf : σ.frames[n]? = some f) (hp : f.pc ≠ .sending) (hd : f.pc ≠ .done) :
    ∃ as σ' f', as.length ≤ 3 ∧ (∀ a ∈ as, a = .wait n ∨ a = .timeout n) ∧ exec σ as = .to σ' ∧ σ'.frames[n]? = some f' ∧ f'.pc = .done := by
  have asleep : ∀ (τ : St) (g : Frame), τ.frames[n]? = some g → g.pc = .asleep →
      ∃ σ' f', exec τ [.timeout n] = .to σ' ∧ σ'.frames[n]? = some f' ∧ f'.pc = .done := by
    intro τ g hg hpc
    refine ⟨{ τ with frames := τ.frames.set n (finish g) }, finish g, ?_, ?_, rfl⟩
    · simp only [exec, step, hg, hpc]
    · simp only; rw [set_getElem? hg, if_pos rfl]
  have drowsy : ∀ (τ : St) (g : Frame), τ.frames[n]? = some g → g.pc = .drowsy →
      ∃ σ' f', exec τ [.wait n, .timeout n] = .to σ' ∧ σ'.frames[n]? = some f' ∧ f'.pc = .done := by
    intro τ g hg hpc
    obtain ⟨σ', f', e1, e2⟩ := asleep { τ with frames := τ.frames.set n { g with pc := .asleep } } { g with pc := .asleep }
      (by simp only; rw [set_getElem? hg, if_pos rfl]) rfl
    refine ⟨σ', f', ?_, e2⟩
    rw [exec]; simp only [step, hg, hpc]; exact e1
  cases hpc : f.pc with
  | sending => exact absurd hpc hp
  | done => exact absurd hpc hd
  | asleep =>
    obtain ⟨σ', f', e1, e2⟩ := asleep σ f hf hpc
    exact ⟨_, σ', f', by simp, by simp, e1, e2⟩
  | drowsy =>
    obtain ⟨σ', f', e1, e2⟩ := drowsy σ f hf hpc
    exact ⟨_, σ', f', by simp, by simp, e1, e2⟩
  | check =>
    cases hw : f.waiting with
    | false =>
      refine ⟨[.wait n], { σ with frames := σ.frames.set n (finish f) }, finish f, by simp, by simp, ?_, ?_, rfl⟩
      · simp only [exec, step, hf, hpc, hw]; rfl
      · simp only; rw [set_getElem? hf, if_pos rfl]
    | true =>
      obtain ⟨σ', f', e1, e2⟩ := drowsy { σ with frames := σ.frames.set n { f with pc := .drowsy } } { f with pc := .drowsy }
        (by simp only; rw [set_getElem? hf, if_pos rfl]) rfl
      refine ⟨[.wait n, .wait n, .timeout n], σ', f', by simp, by simp, ?_, e2⟩
      rw [exec]; simp only [step, hf, hpc, if_pos hw]; exact e1

theorem can_leave {σ : St} {n : Nat} {f : Frame} (hf : σ.frames[n]? = some f) (hp : f.pc ≠ .sending) (hd : f.pc ≠ .done) (hw : f.waiting = false) :
    ∃ k σ' f', k ≤ 3 ∧ exec σ (List.replicate k (.wait n)) = .to σ' ∧ σ'.frames[n]? = some f' ∧ f'.pc = .done := by
  have check : ∀ (τ : St) (g : Frame), τ.frames[n]? = some g → g.pc = .check → g.waiting = false →
      ∃ σ' f', exec τ (List.replicate 1 (.wait n)) = .to σ' ∧ σ'.frames[n]? = some f' ∧ f'.pc = .done := by
    intro τ g hg hpc hgw
    refine ⟨{ τ with frames := τ.frames.set n (finish g) }, finish g, ?_, ?_, rfl⟩
    · simp only [List.replicate, exec, step, hg, hpc, hgw]; rfl
    · simp only; rw [set_getElem? hg, if_pos rfl]
  have asleep : ∀ (τ : St) (g : Frame), τ.frames[n]? = some g → g.pc = .asleep → g.waiting = false →
      ∃ σ' f', exec τ (List.replicate 2 (.wait n)) = .to σ' ∧ σ'.frames[n]? = some f' ∧ f'.pc = .done := by
    intro τ g hg hpc hgw
    obtain ⟨σ', f', e1, e2⟩ := check { τ with frames := τ.frames.set n { g with pc := .check } } { g with pc := .check }
      (by simp only; rw [set_getElem? hg, if_pos rfl]) rfl hgw
    refine ⟨σ', f', ?_, e2⟩
    rw [List.replicate, exec]; simp only [step, hg, hpc]; exact e1
  cases hpc : f.pc with
  | sending => exact absurd hpc hp
  | done => exact absurd hpc hd
  | check => obtain ⟨σ', f', e1, e2⟩ := check σ f hf hpc hw; exact ⟨1, σ', f', by omega, e1, e2⟩
  | asleep => obtain ⟨σ', f', e1, e2⟩ := asleep σ f hf hpc hw; exact ⟨2, σ', f', by omega, e1, e2⟩
  | drowsy =>
    obtain ⟨σ', f', e1, e2⟩ := asleep { σ with frames := σ.frames.set n { f with pc := .asleep } } { f with pc := .asleep }
      (by simp only; rw [set_getElem? hf, if_pos rfl]) rfl hw
    refine ⟨3, σ', f', by omega, ?_, e2⟩
    rw [List.replicate, exec]; simp only [step, hf, hpc]; exact e1

/-- The stored response of a blocking call is its first response. -/
theorem stored_first {σ : St} (h : Reachable σ) (hd : Distinct σ) {n : Nat} {f : Frame} (hf : σ.frames[n]? = some f) {u : Tree}
    (hu : stored σ f.cons f.id = some u) :
    ∃ r ∈ σ.asked, r.cons = f.cons ∧ r.id = f.id ∧ r.cb = .frame n ∧ ∃ x d, σ.cons[r.cons]? = some x ∧
      (responses x.sub r.id (σ.bus.log.drop r.seen)).head? = some d ∧ u = responseOf d.msg.dg := by
  obtain ⟨a, ha, e1, e2, e3, x, hx, hT⟩ := frame_track h.hist h.calls h.tracks hd hf
  refine ⟨a, ha, e1, e2, e3, x, ?_⟩
  unfold stored at hu
  rw [← e1, ← e2] at hu
  rcases hT with ⟨_, g2, _⟩ | ⟨d, rest, g1, g2, _⟩
  · rw [g2] at hu; cases hu
  · refine ⟨d, hx, by rw [g1]; rfl, ?_⟩
    rw [g2] at hu
    simp only [List.head?_cons] at hu
    split at hu
    · cases hu
    · cases hu
    · cases hu; rfl

theorem signalled_stored {σ : St} {c : Nat} {id : Str} (h : signalled σ c id = true) : ∃ u, stored σ c id = some u := by
  unfold signalled at h
  split at h
  · cases h
  · exact Option.isSome_iff_exists.1 h

theorem stored_none {σ : St} {c : Nat} {id : Str} (h : answers c id σ.evs = []) : stored σ c id = none := by
  unfold stored; rw [h]; rfl

/-- While the bus thread is inside a call of `Request`, no callback is invoked. -/
theorem blocked_evs {σ σ' : St} {a : Act} (hb : blocked σ = true) (hs : step σ a = .to σ') :
    σ'.evs = σ.evs ∧ (σ'.inside = σ.inside) := by
  cases step_eff hs with
  | endCb c b h1 => rw [hb] at h1; cases h1
  | quiet c b h1 => rw [hb] at h1; cases h1
  | deliver c b d h1 => rw [hb] at h1; cases h1
  | begin c id t onBus x hx ho =>
    refine ⟨rfl, ?_⟩
    cases onBus with
    | true => have := (ho rfl).2; rw [hb] at this; cases this
    | false => rfl
  | _ => exact ⟨rfl, rfl⟩

/-! ## A callback referring to a call that has returned -/

/-- The bus thread is in the lambda of a call of `Request` that has returned. -/
structure Dead (n : Nat) (σ : St) : Prop where
  inCb : inCb σ.bus.phase = true
  cur : ∃ c id t st, σ.cur = .answering c id (.frame n) t st ∧ st ≠ .over
  frame : ∃ f, σ.frames[n]? = some f ∧ f.pc = .done

theorem Dead.lambda {n : Nat} {σ : St} (h : Dead n σ) : step σ .lambda = .undefined := by
  obtain ⟨_, ⟨c, id, t, st, h1, h2⟩, f, h3, h4⟩ := h
  simp only [Action.step, Action.lambda, h1, h3, if_neg h2, h4, if_true]

theorem Dead.run {n : Nat} {σ : St} (h : Dead n σ) (ch : Bus.Choice) : step σ (.run ch) = .cannot := by
  obtain ⟨hi, ⟨c, id, t, st, h1, h2⟩, f, h3, h4⟩ := h
  cases hs : Action.step σ (.run ch) with
  | cannot => rfl
  | undefined => exact absurd hs (run_not_undefined σ ch)
  | to σ' =>
    cases step_eff hs with
    | endCb _ b h1' h2' h3' h4' h5' h6' => rw [h1] at h6'; cases ch <;> cases st <;> simp [mayEnd] at h6' h2
    | quiet _ b _ _ h3' => rw [hi] at h3'; cases h3'
    | deliver _ b d _ _ h3' => rw [hi] at h3'; cases h3'

theorem Dead.step {n : Nat} {σ σ' : St} {a : Act} (hr : Calls σ) (h : Dead n σ) (hs : step σ a = .to σ') : Dead n σ' := by
  have hrun : ∀ ch, a ≠ .run ch := by
    rintro ch rfl
    rw [h.run] at hs; cases hs
  have hlam : a ≠ .lambda := by
    rintro rfl
    rw [h.lambda] at hs; cases hs
  have hframe : ∃ f, σ'.frames[n]? = some f ∧ f.pc = .done := by
    obtain ⟨f, hf, hd⟩ := h.frame
    obtain ⟨f', hf', e | ⟨e, _⟩ | ⟨e, _⟩⟩ := frame_step hr hs hf
    · subst e; exact ⟨f', hf', hd⟩
    · exact absurd hd e
    · exact absurd hd e
  have keep : σ'.bus.phase = σ.bus.phase → σ'.cur = σ.cur → Dead n σ' :=
    fun e1 e2 => ⟨by rw [e1]; exact h.inCb, by rw [e2]; exact h.cur, hframe⟩
  cases step_eff hs with
  | client a b h1 h2 => exact keep (client_phase (client_not_run h1) h.inCb h2) rfl
  | endCb c b h1 h2 h3 h4 h5 h6 => exact absurd rfl (hrun c)
  | quiet c b h1 h2 h3 h4 h5 => exact absurd rfl (hrun c)
  | deliver c b d h1 h2 h3 h4 h5 h6 => exact absurd rfl (hrun c)
  | test c id n t f h1 h2 h3 => exact absurd rfl hlam
  | store c id n t f h1 h2 h3 => exact absurd rfl hlam
  | flag c id n t f h1 h2 h3 => exact absurd rfl hlam
  | wake c id n t f h1 h2 h3 => exact absurd rfl hlam
  | consumer q s topic b h1 h2 h3 h4 h5 h6 h7 h8 h9 h10 h11 => exact keep (client_phase (fun _ => by simp) h.inCb h11) rfl
  | provider s q topic cb b h1 h2 h3 h4 h5 h6 h7 h8 h9 h10 h11 => exact keep (client_phase (fun _ => by simp) h.inCb h11) rfl
  | send i p x b h1 h2 h3 => exact keep (pubPublish_log h3).2 rfl
  | respond p id t x b h1 h2 => exact keep (pubPublish_log h2).2 rfl
  | _ => exact keep rfl rfl

theorem Dead.exec {n : Nat} {σ σ' : St} {as : List Act} (hr : Reachable σ) (h : Dead n σ) (he : exec σ as = .to σ') : Dead n σ' := by
  induction as generalizing σ with
  | nil => cases he; exact h
  | cons a as ih =>
    obtain ⟨τ, h1, h2⟩ := exec_cons he
    exact ih (hr.step h1) (h.step hr.calls h1) h2

/-- The only source of undefined behaviour in this layer. -/
theorem undefined_cases {σ : St} {a : Act} (hs : step σ a = .undefined) :
    a = .lambda ∧ ∃ c id n t st f, σ.cur = .answering c id (.frame n) t st ∧ st ≠ .over ∧ σ.frames[n]? = some f ∧ f.pc = .done := by
  have hl : ∀ (r : Option Bus.St) (k : Bus.St → St), lift r k ≠ .undefined := by
    intro r k; cases r <;> simp [lift]
  cases a with
  | run c => exact absurd hs (run_not_undefined σ c)
  | lambda =>
    refine ⟨rfl, ?_⟩
    simp only [step, lambda] at hs
    split at hs
    · rename_i c id n t st hc
      split at hs
      · cases hs
      · rename_i f hf
        split at hs
        · cases hs
        · rename_i hst
          split at hs
          · rename_i hd
            exact ⟨c, id, n, t, st, f, hc, hst, hf, hd⟩
          · split at hs <;> cases hs
    · cases hs
  | _ =>
    simp only [step] at hs
    repeat' split at hs
    all_goals first
      | cases hs; done
      | exact absurd hs (hl _ _)

end LP.Action
