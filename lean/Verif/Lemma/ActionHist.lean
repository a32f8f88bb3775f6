import Verif.Lemma.ActionInv
/-!
# Invariants of the action layer: the history
-/
namespace LP.Action
open LP.Bus (Delivery)

/-- What never goes away. -/
structure Mono (σ σ' : St) : Prop where
  log : σ.bus.log <+: σ'.bus.log
  evs : σ.evs <+: σ'.evs
  asked : σ.asked <+: σ'.asked
  threw : σ.threw <+: σ'.threw
  cons : ∀ (c : Nat) (x : Cons), σ.cons[c]? = some x → ∃ x' : Cons, σ'.cons[c]? = some x' ∧ x'.topic = x.topic ∧ x'.sub = x.sub ∧ x'.pub = x.pub
  provs : ∀ (c : Nat) (x : Prov), σ.provs[c]? = some x → ∃ x' : Prov, σ'.provs[c]? = some x' ∧ x'.topic = x.topic ∧ x'.sub = x.sub ∧ x'.pub = x.pub
  frames : ∀ (n : Nat) (f : Frame), σ.frames[n]? = some f → ∃ f' : Frame, σ'.frames[n]? = some f' ∧ f'.cons = f.cons ∧ f'.id = f.id

theorem Mono.refl (σ : St) : Mono σ σ :=
  ⟨List.prefix_refl _, List.prefix_refl _, List.prefix_refl _, List.prefix_refl _, fun _ x h => ⟨x, h, rfl, rfl, rfl⟩,
    fun _ x h => ⟨x, h, rfl, rfl, rfl⟩, fun _ x h => ⟨x, h, rfl, rfl⟩⟩

theorem Mono.trans {σ τ ρ : St} (h : Mono σ τ) (h' : Mono τ ρ) : Mono σ ρ := by
  refine ⟨h.log.trans h'.log, h.evs.trans h'.evs, h.asked.trans h'.asked, h.threw.trans h'.threw, ?_, ?_, ?_⟩
  · intro c x hx
    obtain ⟨y, hy, e1, e2, e3⟩ := h.cons c x hx
    obtain ⟨z, hz, f1, f2, f3⟩ := h'.cons c y hy
    exact ⟨z, hz, f1.trans e1, f2.trans e2, f3.trans e3⟩
  · intro c x hx
    obtain ⟨y, hy, e1, e2, e3⟩ := h.provs c x hx
    obtain ⟨z, hz, f1, f2, f3⟩ := h'.provs c y hy
    exact ⟨z, hz, f1.trans e1, f2.trans e2, f3.trans e3⟩
  · intro c x hx
    obtain ⟨y, hy, e1, e2⟩ := h.frames c x hx
    obtain ⟨z, hz, f1, f2⟩ := h'.frames c y hy
    exact ⟨z, hz, f1.trans e1, f2.trans e2⟩

theorem dispatch_evs (σ : St) (d : Delivery) : (dispatch σ d).evs = σ.evs ∨
    (∃ c x id cb st, fnOf d.cb = .consumer c ∧ σ.cons[c]? = some x ∧ idOf d.msg.dg = some id ∧ x.opened.find id = some cb ∧
      (dispatch σ d).evs = σ.evs ++ [.answered c id cb (responseOf d.msg.dg)] ∧
      (dispatch σ d).cur = .answering c id cb (responseOf d.msg.dg) st ∧
      st = firstStage cb) ∨
    (∃ p x id k, fnOf d.cb = .provider p ∧ σ.provs[p]? = some x ∧ idOf d.msg.dg = some id ∧ x.cb = some k ∧
      (dispatch σ d).evs = σ.evs ++ [.requested p k id d.msg.dg] ∧ (dispatch σ d).cur = .providing p id) := by
  unfold dispatch
  split
  · exact .inl rfl
  · rename_i c hf
    split
    · rename_i id x hid hx
      split
      · exact .inl rfl
      · rename_i cb hcb
        exact .inr (.inl ⟨c, x, id, cb, _, hf, hx, hid, hcb, rfl, rfl, rfl⟩)
    · exact .inl rfl
  · rename_i c hf
    split
    · rename_i id x hid hx
      split
      · exact .inl rfl
      · rename_i k hk
        exact .inr (.inr ⟨c, x, id, k, hf, hx, hid, hk, rfl, rfl⟩)
    · exact .inl rfl

theorem endCb_threw (σ : St) (b : Bus.St) (c : Bus.Choice) : (endCb σ b c).threw = σ.threw ∨
    ∃ k id cb t st, σ.cur = .answering k id cb t st ∧ c = .throwing ∧ (endCb σ b c).threw = σ.threw ++ [(k, id)] := by
  unfold endCb
  split
  · exact .inl rfl
  · rename_i hc
    exact .inr ⟨_, _, _, _, _, hc, rfl, rfl⟩
  · exact .inl rfl

theorem frames_set_mono {l : List Frame} {n : Nat} {f g : Frame} (hf : l[n]? = some f) (h1 : g.cons = f.cons) (h2 : g.id = f.id) :
    ∀ (m : Nat) (f : Frame), l[m]? = some f → ∃ f' : Frame, (l.set n g)[m]? = some f' ∧ f'.cons = f.cons ∧ f'.id = f.id := by
  intro m f' hf'
  refine ⟨_, set_getElem? hf', ?_⟩
  split
  · subst_vars; rw [hf] at hf'; cases hf'; exact ⟨h1, h2⟩
  · exact ⟨rfl, rfl⟩

theorem mono_set {σ : St} {n : Nat} {f g : Frame} {cur : Cur} (hf : σ.frames[n]? = some f) (h1 : g.cons = f.cons)
    (h2 : g.id = f.id) : Mono σ { σ with frames := σ.frames.set n g, cur := cur } :=
  ⟨List.prefix_refl _, List.prefix_refl _, List.prefix_refl _, List.prefix_refl _, fun _ x h => ⟨x, h, rfl, rfl, rfl⟩,
    fun _ x h => ⟨x, h, rfl, rfl, rfl⟩, frames_set_mono hf h1 h2⟩

theorem setCb_log {b b' : Bus.St} {s : Nat} {cb : Option Nat} (h : Bus.step b (.setCb s cb) = some b') : b'.log = b.log := by
  rw [setCb_world h]

theorem pubPublish_log {b b' : Bus.St} {q : Nat} {t : Tree} (h : Bus.step b (.pubPublish q t) = some b') :
    b'.log = b.log ∧ b'.phase = b.phase := by
  simp only [Bus.step] at h
  split at h <;> cases h
  exact ⟨rfl, rfl⟩

theorem client_not_run {σ : St} {a : Bus.Act} (h : clientMay σ a = true) : ∀ c, a ≠ .run c := by
  rintro c rfl; simp [clientMay] at h

theorem mono_step {σ σ' : St} {a : Act} (hs : step σ a = .to σ') : Mono σ σ' := by
  have r := Mono.refl σ
  cases step_eff hs with
  | client a b h1 h2 =>
    have := (client_cases (client_not_run h1) h2).2.2.1
    exact ⟨by simp [this], r.evs, r.asked, r.threw, r.cons, r.provs, r.frames⟩
  | endCb c b h1 h2 h3 h4 h5 h6 =>
    obtain ⟨e1, e2, e3, e4, e5, e6, e7, e8, e9⟩ := endCb_same σ b c
    refine ⟨by rw [e1, h5]; exact r.log, by rw [e7]; exact r.evs, by rw [e8]; exact r.asked, ?_, ?_, by rw [e2]; exact r.provs,
      by rw [e4]; exact r.frames⟩
    · rcases endCb_threw σ b c with h | ⟨_, _, _, _, _, _, _, h⟩ <;> rw [h]
      · exact r.threw
      · exact List.prefix_append _ _
    · intro i x hx
      exact endCb_cons' hx
  | quiet c b h1 h2 h3 h4 h5 =>
    exact ⟨by simp [h5], r.evs, r.asked, r.threw, r.cons, r.provs, r.frames⟩
  | deliver c b d h1 h2 h3 h4 h5 h6 =>
    obtain ⟨e1, e2, e3, e4, e5, e6, e7, e8, e9⟩ := dispatch_same { σ with bus := b } d
    refine ⟨by rw [e1]; simp only; rw [h5]; exact List.prefix_append _ _, ?_, by rw [e7]; exact r.asked, by rw [e9]; exact r.threw,
      by rw [e2]; exact r.cons, by rw [e3]; exact r.provs, by rw [e5]; exact r.frames⟩
    rcases dispatch_evs { σ with bus := b } d with h | ⟨_, _, _, _, _, _, _, _, _, h, _⟩ | ⟨_, _, _, _, _, _, _, _, h, _⟩ <;> rw [h]
    · exact r.evs
    · exact List.prefix_append _ _
    · exact List.prefix_append _ _
  | test c id n t f h1 h2 h3 => exact ⟨r.log, r.evs, r.asked, r.threw, r.cons, r.provs, r.frames⟩
  | store c id n t f h1 h2 h3 => exact mono_set h2 rfl rfl
  | flag c id n t f h1 h2 h3 => exact mono_set h2 rfl rfl
  | wake c id n t f h1 h2 h3 => exact mono_set h2 rfl rfl
  | consumer q s topic b h1 h2 h3 h4 h5 h6 h7 h8 h9 h10 h11 =>
    have := setCb_log h11
    refine ⟨by simp [this], r.evs, r.asked, r.threw, ?_, r.provs, r.frames⟩
    intro i x hx
    exact ⟨x, getElem?_append_old hx, rfl, rfl, rfl⟩
  | provider s q topic cb b h1 h2 h3 h4 h5 h6 h7 h8 h9 h10 h11 =>
    have := setCb_log h11
    refine ⟨by simp [this], r.evs, r.asked, r.threw, r.cons, ?_, r.frames⟩
    intro i x hx
    exact ⟨x, getElem?_append_old hx, rfl, rfl, rfl⟩
  | reset p =>
    refine ⟨r.log, r.evs, r.asked, r.threw, r.cons, ?_, r.frames⟩
    intro i x hx
    refine ⟨_, modify_getElem? hx, ?_⟩
    split <;> exact ⟨rfl, rfl, rfl⟩
  | request c id k t x hx =>
    refine ⟨r.log, r.evs, List.prefix_append _ _, r.threw, ?_, r.provs, r.frames⟩
    intro i y hy
    refine ⟨_, set_getElem? hy, ?_⟩
    split
    · subst_vars; rw [hx] at hy; cases hy; exact ⟨rfl, rfl, rfl⟩
    · exact ⟨rfl, rfl, rfl⟩
  | begin c id t onBus x hx ho =>
    refine ⟨r.log, r.evs, List.prefix_append _ _, r.threw, ?_, r.provs, fun n f h => ⟨f, getElem?_append_old h, rfl, rfl⟩⟩
    intro i y hy
    refine ⟨_, set_getElem? hy, ?_⟩
    split
    · subst_vars; rw [hx] at hy; cases hy; exact ⟨rfl, rfl, rfl⟩
    · exact ⟨rfl, rfl, rfl⟩
  | send i p x b h1 h2 h3 =>
    have := (pubPublish_log h3).1
    refine ⟨by simp [this], r.evs, r.asked, r.threw, r.cons, r.provs, ?_⟩
    cases hf : p.frame with
    | none => exact r.frames
    | some n =>
      intro m f hm
      refine ⟨_, modify_getElem? hm, ?_⟩
      split <;> exact ⟨rfl, rfl⟩
  | respond p id t x b h1 h2 =>
    have := (pubPublish_log h2).1
    exact ⟨by simp [this], r.evs, r.asked, r.threw, r.cons, r.provs, r.frames⟩
  | look n f h1 h2 h3 => exact mono_set h1 rfl rfl
  | leave n f h1 h2 h3 => exact mono_set h1 rfl rfl
  | sleep n f h1 h2 => exact mono_set h1 rfl rfl
  | spurious n f h1 h2 => exact mono_set h1 rfl rfl
  | timeout n f h1 h2 => exact mono_set h1 rfl rfl

theorem mono_exec {σ σ' : St} {as : List Act} (he : exec σ as = .to σ') : Mono σ σ' := by
  induction as generalizing σ with
  | nil => cases he; exact .refl _
  | cons a as ih =>
    obtain ⟨ρ, h1, h2⟩ := exec_cons he
    exact (mono_step h1).trans (ih h2)

end LP.Action
