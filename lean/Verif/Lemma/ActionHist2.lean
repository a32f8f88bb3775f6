import Verif.Lemma.ActionHist
/-!
# Invariants of the action layer: where callbacks and events come from
-/
namespace LP.Action
open LP.Bus (Delivery)

/-- A registered request. -/
def IsAsked (σ : St) (c : Nat) (id : Str) (cb : Cb) : Prop := ∃ a ∈ σ.asked, a.cons = c ∧ a.id = id ∧ a.cb = cb

theorem IsAsked.mono {σ σ' : St} (h : Mono σ σ') {c : Nat} {id : Str} {cb : Cb} (ha : IsAsked σ c id cb) : IsAsked σ' c id cb := by
  obtain ⟨a, h1, h2⟩ := ha
  exact ⟨a, h.asked.subset h1, h2⟩

/-- A response for `id` with content `t` was delivered to consumer `c`. -/
def WasDelivered (σ : St) (c : Nat) (id : Str) (t : Tree) : Prop :=
  ∃ x, σ.cons[c]? = some x ∧ ∃ d ∈ σ.bus.log, d.sub = x.sub ∧ idOf d.msg.dg = some id ∧ t = responseOf d.msg.dg

theorem WasDelivered.mono {σ σ' : St} (h : Mono σ σ') {c : Nat} {id : Str} {t : Tree} (ha : WasDelivered σ c id t) :
    WasDelivered σ' c id t := by
  obtain ⟨x, hx, d, hd, e⟩ := ha
  obtain ⟨x', hx', _, e', _⟩ := h.cons c x hx
  exact ⟨x', hx', d, h.log.subset hd, by rw [e']; exact e.1, e.2⟩

/-- A message was delivered to provider `p`. -/
def WasRequested (σ : St) (p : Nat) (id : Str) (t : Tree) : Prop :=
  ∃ x, σ.provs[p]? = some x ∧ ∃ d ∈ σ.bus.log, d.sub = x.sub ∧ idOf d.msg.dg = some id ∧ t = d.msg.dg

theorem WasRequested.mono {σ σ' : St} (h : Mono σ σ') {p : Nat} {id : Str} {t : Tree} (ha : WasRequested σ p id t) :
    WasRequested σ' p id t := by
  obtain ⟨x, hx, d, hd, e⟩ := ha
  obtain ⟨x', hx', _, e', _⟩ := h.provs p x hx
  exact ⟨x', hx', d, h.log.subset hd, by rw [e']; exact e.1, e.2⟩

/-- What holds of the observations in every reachable state. -/
structure Hist (σ : St) : Prop where
  idle : σ.cur = .idle ↔ inCb σ.bus.phase = false
  curAns : ∀ c id cb t st, σ.cur = .answering c id cb t st → Ev.answered c id cb t ∈ σ.evs ∧ (∀ k, cb = .user k → st = .over)
  opened : ∀ c x id cb, σ.cons[c]? = some x → x.opened.find id = some cb → IsAsked σ c id cb
  ansEv : ∀ c id cb t, Ev.answered c id cb t ∈ σ.evs → IsAsked σ c id cb ∧ WasDelivered σ c id t
  reqEv : ∀ p k id t, Ev.requested p k id t ∈ σ.evs → WasRequested σ p id t
  seen : ∀ a ∈ σ.asked, a.seen ≤ σ.bus.log.length ∧ ∃ x, σ.cons[a.cons]? = some x
  threw : ∀ c id, (c, id) ∈ σ.threw → ∃ k, IsAsked σ c id (.user k)

/-- Events that only move other parts of the state. -/
theorem Hist.keep {σ σ' : St} (h : Hist σ) (m : Mono σ σ') (hi : inCb σ'.bus.phase = inCb σ.bus.phase) (hcur : σ'.cur = σ.cur)
    (hc : σ'.cons = σ.cons) (he : σ'.evs = σ.evs) (ha : σ'.asked = σ.asked) (ht : σ'.threw = σ.threw) : Hist σ' := by
  refine ⟨by rw [hi, hcur]; exact h.idle, ?_, ?_, ?_, ?_, ?_, ?_⟩
  · rw [hcur, he]; exact h.curAns
  · rw [hc]; intro c x id cb h1 h2; exact (h.opened c x id cb h1 h2).mono m
  · rw [he]; intro c id cb t h1; have := h.ansEv c id cb t h1; exact ⟨this.1.mono m, this.2.mono m⟩
  · rw [he]; intro p k id t h1; exact (h.reqEv p k id t h1).mono m
  · rw [ha]; intro a h1; have := h.seen a h1; rw [hc]; exact ⟨Nat.le_trans this.1 m.log.length_le, this.2⟩
  · rw [ht]; intro c id h1; obtain ⟨k, hk⟩ := h.threw c id h1; exact ⟨k, hk.mono m⟩

theorem Hist.register {σ σ' : St} (h : Hist σ) (m : Mono σ σ') {c : Nat} {x : Cons} {id : Str} {cb : Cb} {t : Tree}
    (hx : σ.cons[c]? = some x) (hb : σ'.bus = σ.bus) (hcur : σ'.cur = σ.cur)
    (hc : σ'.cons = σ.cons.set c { x with opened := x.opened.insert id cb }) (he : σ'.evs = σ.evs)
    (ha : σ'.asked = σ.asked ++ [⟨c, id, cb, t, σ.bus.log.length⟩]) (ht : σ'.threw = σ.threw) : Hist σ' := by
  refine ⟨by rw [hb, hcur]; exact h.idle, ?_, ?_, ?_, ?_, ?_, ?_⟩
  · rw [hcur, he]; exact h.curAns
  · rw [hc]
    intro i y j cb' h1 h2
    rcases set_inv h1 with ⟨rfl, rfl⟩ | ⟨_, h'⟩
    · simp only [Dict.find_insert] at h2
      split at h2
      · subst_vars; cases h2
        exact ⟨_, by rw [ha]; exact List.mem_append_right _ (List.mem_singleton.2 rfl), rfl, rfl, rfl⟩
      · exact (h.opened _ x _ _ hx h2).mono m
    · exact (h.opened _ y _ _ h' h2).mono m
  · rw [he]; intro c id cb t h1; have := h.ansEv c id cb t h1; exact ⟨this.1.mono m, this.2.mono m⟩
  · rw [he]; intro p k id t h1; exact (h.reqEv p k id t h1).mono m
  · rw [ha, hb]
    intro a h1
    rcases List.mem_append.1 h1 with h1 | h1
    · have := h.seen a h1
      obtain ⟨y, hy⟩ := this.2
      obtain ⟨y', hy', _⟩ := m.cons _ _ hy
      exact ⟨this.1, y', hy'⟩
    · simp only [List.mem_singleton] at h1; subst h1
      obtain ⟨y', hy', _⟩ := m.cons _ _ hx
      exact ⟨Nat.le_refl _, y', hy'⟩
  · rw [ht]; intro c id h1; obtain ⟨k, hk⟩ := h.threw c id h1; exact ⟨k, hk.mono m⟩

theorem dispatch_cur (σ : St) (d : Delivery) : (dispatch σ d).cur ≠ .idle := by
  unfold dispatch
  repeat' split
  all_goals simp

/-- If the callback that was invoked is answering a request, its event was just recorded. -/
theorem dispatch_answering {σ : St} {d : Delivery} {c : Nat} {id : Str} {cb : Cb} {t : Tree} {st : Stage}
    (h : (dispatch σ d).cur = .answering c id cb t st) : ∃ x, fnOf d.cb = .consumer c ∧ σ.cons[c]? = some x ∧
      idOf d.msg.dg = some id ∧ x.opened.find id = some cb ∧ t = responseOf d.msg.dg ∧
      (dispatch σ d).evs = σ.evs ++ [.answered c id cb t] ∧ st = firstStage cb := by
  cases hf : fnOf d.cb with
  | user => simp only [dispatch, hf] at h; cases h
  | consumer c' =>
    cases hid : idOf d.msg.dg with
    | none => simp only [dispatch, hf, hid] at h; cases h
    | some id' =>
      cases hx : σ.cons[c']? with
      | none => simp only [dispatch, hf, hid, hx] at h; cases h
      | some x =>
        cases hcb : x.opened.find id' with
        | none => simp only [dispatch, hf, hid, hx, hcb] at h; cases h
        | some cb' =>
          simp only [dispatch, hf, hid, hx, hcb] at h
          cases h
          exact ⟨x, rfl, hx, rfl, hcb, rfl, by simp only [dispatch, hf, hid, hx, hcb], rfl⟩
  | provider p =>
    cases hid : idOf d.msg.dg with
    | none => simp only [dispatch, hf, hid] at h; cases h
    | some id' =>
      cases hx : σ.provs[p]? with
      | none => simp only [dispatch, hf, hid, hx] at h; cases h
      | some x =>
        cases hcb : x.cb with
        | none => simp only [dispatch, hf, hid, hx, hcb] at h; cases h
        | some cb' => simp only [dispatch, hf, hid, hx, hcb] at h; cases h

theorem hist_step {σ σ' : St} {a : Act} (ho : Own σ) (h : Hist σ) (hs : step σ a = .to σ') : Hist σ' := by
  have m := mono_step hs
  cases step_eff hs with
  | client a b h1 h2 =>
    exact h.keep m (client_cases (client_not_run h1) h2).2.2.2.1 rfl rfl rfl rfl rfl
  | endCb c b h1 h2 h3 h4 h5 h6 =>
    obtain ⟨e1, e2, e3, e4, e5, e6, e7, e8, e9⟩ := endCb_same σ b c
    refine ⟨by rw [e1, e5, h4]; simp, ?_, ?_, ?_, ?_, ?_, ?_⟩
    · rw [e5]; intro _ _ _ _ _ h; cases h
    · intro i x' id cb hx' hf
      obtain ⟨x, hx, rfl | ⟨id', cb', t, st, hc, _, rfl⟩⟩ := endCb_cons hx'
      · exact (h.opened _ _ _ _ hx hf).mono m
      · simp only [Dict.find_erase (ho.cons _ _ hx).sorted] at hf
        split at hf
        · cases hf
        · exact (h.opened _ _ _ _ hx hf).mono m
    · rw [e7]; intro c id cb t h1; have := h.ansEv c id cb t h1; exact ⟨this.1.mono m, this.2.mono m⟩
    · rw [e7]; intro p k id t h1; exact (h.reqEv p k id t h1).mono m
    · rw [e8]; intro a ha
      have := h.seen a ha
      obtain ⟨y, hy⟩ := this.2
      obtain ⟨y', hy', _⟩ := m.cons _ _ hy
      exact ⟨Nat.le_trans this.1 m.log.length_le, y', hy'⟩
    · intro i id ht
      rcases endCb_threw σ b c with e | ⟨k, id', cb, t, st, hc, rfl, e⟩
      · rw [e] at ht; obtain ⟨k, hk⟩ := h.threw _ _ ht; exact ⟨k, hk.mono m⟩
      · rw [e] at ht
        rcases List.mem_append.1 ht with ht | ht
        · obtain ⟨k, hk⟩ := h.threw _ _ ht; exact ⟨k, hk.mono m⟩
        · simp only [List.mem_singleton, Prod.mk.injEq] at ht
          obtain ⟨rfl, rfl⟩ := ht
          rw [hc] at h6
          cases cb with
          | user k => exact ⟨k, (h.ansEv _ _ _ _ (h.curAns _ _ _ _ _ hc).1).1.mono m⟩
          | frame n => cases st <;> simp [mayEnd] at h6
  | quiet c b h1 h2 h3 h4 h5 => exact h.keep m (by simp only [h3, h4]) rfl rfl rfl rfl rfl
  | deliver c b d h1 h2 h3 h4 h5 h6 =>
    obtain ⟨e1, e2, e3, e4, e5, e6, e7, e8, e9⟩ := dispatch_same { σ with bus := b } d
    have hlog : (dispatch { σ with bus := b } d).bus.log = σ.bus.log ++ [d] := by rw [e1]; exact h5
    have hdel : d ∈ (dispatch { σ with bus := b } d).bus.log := by
      rw [hlog]; exact List.mem_append_right _ (List.mem_singleton.2 rfl)
    refine ⟨?_, ?_, ?_, ?_, ?_, ?_, ?_⟩
    · rw [e1]; simp only; rw [h4]
      simp [dispatch_cur]
    · intro c' id cb t st hc
      obtain ⟨x, _, _, _, _, _, hev, hst⟩ := dispatch_answering hc
      refine ⟨by rw [hev]; exact List.mem_append_right _ (List.mem_singleton.2 rfl), ?_⟩
      rintro k rfl; exact hst
    · rw [e2]; intro c x id cb h1 h2; exact (h.opened c x id cb h1 h2).mono m
    · intro c' id cb t hev
      rcases dispatch_evs { σ with bus := b } d with e | ⟨c'', x, id', cb', st, hf, hx, hid, hcb, e, _⟩ | ⟨p, x, id', k, hf, hx, hid, hk, e, _⟩
      · rw [e] at hev; have := h.ansEv _ _ _ _ hev; exact ⟨this.1.mono m, this.2.mono m⟩
      · rw [e] at hev
        rcases List.mem_append.1 hev with hev | hev
        · have := h.ansEv _ _ _ _ hev; exact ⟨this.1.mono m, this.2.mono m⟩
        · simp only [List.mem_singleton, Ev.answered.injEq] at hev
          obtain ⟨rfl, rfl, rfl, rfl⟩ := hev
          refine ⟨(h.opened _ _ _ _ hx hcb).mono m, x, by rw [e2]; exact hx, d, hdel, ?_, hid, rfl⟩
          obtain ⟨y, hy, e⟩ := (ho.consumer h6).1 hf
          simp only at hx
          rw [hy] at hx; cases hx; exact e
      · rw [e] at hev
        rcases List.mem_append.1 hev with hev | hev
        · have := h.ansEv _ _ _ _ hev; exact ⟨this.1.mono m, this.2.mono m⟩
        · simp at hev
    · intro p' k' id t hev
      rcases dispatch_evs { σ with bus := b } d with e | ⟨c'', x, id', cb', st, hf, hx, hid, hcb, e, _⟩ | ⟨p, x, id', k, hf, hx, hid, hk, e, _⟩
      · rw [e] at hev; exact (h.reqEv _ _ _ _ hev).mono m
      · rw [e] at hev
        rcases List.mem_append.1 hev with hev | hev
        · exact (h.reqEv _ _ _ _ hev).mono m
        · simp at hev
      · rw [e] at hev
        rcases List.mem_append.1 hev with hev | hev
        · exact (h.reqEv _ _ _ _ hev).mono m
        · simp only [List.mem_singleton, Ev.requested.injEq] at hev
          obtain ⟨rfl, rfl, rfl, rfl⟩ := hev
          refine ⟨x, by rw [e3]; exact hx, d, hdel, ?_, hid, rfl⟩
          obtain ⟨y, hy, e⟩ := (ho.provider h6).1 hf
          simp only at hx
          rw [hy] at hx; cases hx; exact e
    · rw [e7, e2]; intro a ha; have := h.seen a ha; exact ⟨Nat.le_trans this.1 m.log.length_le, this.2⟩
    · rw [e9]; intro c id h1; obtain ⟨k, hk⟩ := h.threw c id h1; exact ⟨k, hk.mono m⟩
  | test c id n t f h1 h2 h3 =>
    have hc := h.curAns _ _ _ _ _ h1
    have hi : inCb σ.bus.phase ≠ false := fun e => by have := h.idle.2 e; rw [h1] at this; cases this
    refine ⟨by simp; simpa using hi, ?_, ?_, ?_, ?_, h.seen, ?_⟩
    · intro _ _ _ _ _ e; cases e; exact ⟨hc.1, fun k e => by cases e⟩
    · intro c x id cb h1 h2; exact (h.opened c x id cb h1 h2).mono m
    · intro c id cb t h1; have := h.ansEv c id cb t h1; exact ⟨this.1.mono m, this.2.mono m⟩
    · intro p k id t h1; exact (h.reqEv p k id t h1).mono m
    · intro c id h1; obtain ⟨k, hk⟩ := h.threw c id h1; exact ⟨k, hk.mono m⟩
  | store c id n t f h1 h2 h3 =>
    have hc := h.curAns _ _ _ _ _ h1
    have hi : inCb σ.bus.phase ≠ false := fun e => by have := h.idle.2 e; rw [h1] at this; cases this
    refine ⟨by simp; simpa using hi, ?_, ?_, ?_, ?_, h.seen, ?_⟩
    · intro _ _ _ _ _ e; cases e; exact ⟨hc.1, fun k e => by cases e⟩
    · intro c x id cb h1 h2; exact (h.opened c x id cb h1 h2).mono m
    · intro c id cb t h1; have := h.ansEv c id cb t h1; exact ⟨this.1.mono m, this.2.mono m⟩
    · intro p k id t h1; exact (h.reqEv p k id t h1).mono m
    · intro c id h1; obtain ⟨k, hk⟩ := h.threw c id h1; exact ⟨k, hk.mono m⟩
  | flag c id n t f h1 h2 h3 =>
    have hc := h.curAns _ _ _ _ _ h1
    have hi : inCb σ.bus.phase ≠ false := fun e => by have := h.idle.2 e; rw [h1] at this; cases this
    refine ⟨by simp; simpa using hi, ?_, ?_, ?_, ?_, h.seen, ?_⟩
    · intro _ _ _ _ _ e; cases e; exact ⟨hc.1, fun k e => by cases e⟩
    · intro c x id cb h1 h2; exact (h.opened c x id cb h1 h2).mono m
    · intro c id cb t h1; have := h.ansEv c id cb t h1; exact ⟨this.1.mono m, this.2.mono m⟩
    · intro p k id t h1; exact (h.reqEv p k id t h1).mono m
    · intro c id h1; obtain ⟨k, hk⟩ := h.threw c id h1; exact ⟨k, hk.mono m⟩
  | wake c id n t f h1 h2 h3 =>
    have hc := h.curAns _ _ _ _ _ h1
    have hi : inCb σ.bus.phase ≠ false := fun e => by have := h.idle.2 e; rw [h1] at this; cases this
    refine ⟨by simp; simpa using hi, ?_, ?_, ?_, ?_, h.seen, ?_⟩
    · intro _ _ _ _ _ e; cases e; exact ⟨hc.1, fun k e => by cases e⟩
    · intro c x id cb h1 h2; exact (h.opened c x id cb h1 h2).mono m
    · intro c id cb t h1; have := h.ansEv c id cb t h1; exact ⟨this.1.mono m, this.2.mono m⟩
    · intro p k id t h1; exact (h.reqEv p k id t h1).mono m
    · intro c id h1; obtain ⟨k, hk⟩ := h.threw c id h1; exact ⟨k, hk.mono m⟩
  | consumer q s topic b h1 h2 h3 h4 h5 h6 h7 h8 h9 h10 h11 =>
    have hb := setCb_world h11
    refine ⟨by rw [hb]; exact h.idle, h.curAns, ?_, ?_, ?_, ?_, ?_⟩
    · intro i x id cb hx hf
      rcases getElem?_append_one hx with hx | ⟨rfl, rfl⟩
      · exact (h.opened _ _ _ _ hx hf).mono m
      · simp at hf
    · intro c id cb t h1; have := h.ansEv c id cb t h1; exact ⟨this.1.mono m, this.2.mono m⟩
    · intro p k id t h1; exact (h.reqEv p k id t h1).mono m
    · intro a ha
      have := h.seen a ha
      obtain ⟨y, hy⟩ := this.2
      obtain ⟨y', hy', _⟩ := m.cons _ _ hy
      exact ⟨Nat.le_trans this.1 m.log.length_le, y', hy'⟩
    · intro c id h1; obtain ⟨k, hk⟩ := h.threw c id h1; exact ⟨k, hk.mono m⟩
  | provider s q topic cb b h1 h2 h3 h4 h5 h6 h7 h8 h9 h10 h11 =>
    exact h.keep m (by rw [setCb_world h11]) rfl rfl rfl rfl rfl
  | reset p => exact h.keep m rfl rfl rfl rfl rfl rfl
  | request c id k t x hx => exact h.register m hx rfl rfl rfl rfl rfl rfl
  | begin c id t onBus x hx ho => exact h.register m hx rfl rfl rfl rfl rfl rfl
  | send i p x b h1 h2 h3 => exact h.keep m (by simp only [(pubPublish_log h3).2]) rfl rfl rfl rfl rfl
  | respond p id t x b h1 h2 => exact h.keep m (by simp only [(pubPublish_log h2).2]) rfl rfl rfl rfl rfl
  | look n f h1 h2 h3 => exact h.keep m rfl rfl rfl rfl rfl rfl
  | leave n f h1 h2 h3 => exact h.keep m rfl rfl rfl rfl rfl rfl
  | sleep n f h1 h2 => exact h.keep m rfl rfl rfl rfl rfl rfl
  | spurious n f h1 h2 => exact h.keep m rfl rfl rfl rfl rfl rfl
  | timeout n f h1 h2 => exact h.keep m rfl rfl rfl rfl rfl rfl

theorem initial_facts {name : Str} {b : Bus.St} (h : Bus.initial name = some b) :
    b.phase = .off ∧ b.log = [] ∧ b.published = [] ∧ b.inflight = [] := by
  simp only [Bus.initial] at h
  split at h <;> cases h
  exact ⟨rfl, rfl, rfl, rfl⟩

theorem Reachable.hist {σ : St} (h : Reachable σ) : Hist σ := by
  refine reachable_induct (P := Hist) ?_ (fun σ a σ' hr hp hs => hist_step hr.own hp hs) h
  intro name b hb
  obtain ⟨h1, _⟩ := initial_facts hb
  exact ⟨by simp [h1, inCb], fun _ _ _ _ _ h => by simp at h, fun _ _ _ _ h => by simp at h, fun _ _ _ _ h => by simp at h,
    fun _ _ _ _ h => by simp at h, fun _ h => by simp at h, fun _ _ h => by simp at h⟩

end LP.Action
