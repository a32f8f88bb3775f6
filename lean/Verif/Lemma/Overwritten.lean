import Verif.Lemma.ActionDone
import Verif.Spec.Overwritten
/-!
# A callback that is not registered any more
-/
namespace LP.Action
open LP.Bus (Delivery BMsg)

/-- Consumer `c` does not have the callback under this id. -/
def Lost (c : Nat) (id : Str) (cb : Cb) (σ : St) : Prop := ∀ x, σ.cons[c]? = some x → x.opened.find id ≠ some cb

/-- Nor is the bus thread in a call of it. -/
def NotIn (c : Nat) (id : Str) (cb : Cb) (σ : St) : Prop := ∀ t st, σ.cur ≠ .answering c id cb t st

theorem Lost.same {c : Nat} {id : Str} {cb : Cb} {σ σ' : St} (h : Lost c id cb σ) (e : σ'.cons = σ.cons) : Lost c id cb σ' := by
  intro x hx; rw [e] at hx; exact h x hx

theorem lost_register {c : Nat} {id : Str} {cb : Cb} {σ σ' : St} (h : Lost c id cb σ) {c' : Nat} {x : Cons} {id' : Str} {cb' : Cb}
    (hx : σ.cons[c']? = some x) (hc : σ'.cons = σ.cons.set c' { x with opened := x.opened.insert id' cb' })
    (hn : ¬(c' = c ∧ id' = id ∧ cb' = cb)) : Lost c id cb σ' := by
  intro y hy
  rw [hc] at hy
  rcases set_inv hy with ⟨rfl, rfl⟩ | ⟨_, hy⟩
  · simp only [Dict.find_insert]
    split
    · rename_i e
      intro e'; cases e'; exact hn ⟨rfl, e, rfl⟩
    · exact h x hx
  · exact h y hy

theorem lost_step {σ σ' : St} {a : Act} {c : Nat} {id : Str} {cb : Cb} (ho : Own σ) (h : Lost c id cb σ) (hs : step σ a = .to σ')
    (hno : ∀ r ∈ σ'.asked.drop σ.asked.length, ¬(r.cons = c ∧ r.id = id ∧ r.cb = cb)) :
    Lost c id cb σ' ∧ (∀ t, Ev.answered c id cb t ∉ σ'.evs.drop σ.evs.length) ∧ (NotIn c id cb σ → NotIn c id cb σ') := by
  have noev : ∀ {τ : St}, τ.evs = σ.evs → ∀ t, Ev.answered c id cb t ∉ τ.evs.drop σ.evs.length := by
    intro τ e t; rw [e]; simp
  have reg : ∀ {τ : St} {r : Asked}, τ.asked = σ.asked ++ [r] → (∀ r ∈ τ.asked.drop σ.asked.length, ¬(r.cons = c ∧ r.id = id ∧ r.cb = cb)) →
      ¬(r.cons = c ∧ r.id = id ∧ r.cb = cb) := by
    intro τ r e hno; exact hno r (by rw [e]; simp)
  cases step_eff hs with
  | endCb ch b h1 h2 h3 h4 h5 h6 =>
    obtain ⟨e1, e2, e3, e4, e5, e6, e7, e8, e9⟩ := endCb_same σ b ch
    refine ⟨?_, noev e7, fun _ t st e => ?_⟩
    · intro x hx
      obtain ⟨y, hy, rfl | ⟨id', cb', t, st, hc, _, rfl⟩⟩ := endCb_cons hx
      · exact h _ hy
      · simp only [Dict.find_erase (ho.cons _ _ hy).sorted]
        split
        · exact nofun
        · exact h _ hy
    · rw [e5] at e; cases e
  | deliver ch b d h1 h2 h3 h4 h5 h6 =>
    obtain ⟨_, e2, _⟩ := dispatch_same { σ with bus := b } d
    have hl : ∀ {t st}, (dispatch { σ with bus := b } d).cur ≠ .answering c id cb t st := by
      intro t st hc
      obtain ⟨y, _, hy, _, hf, _⟩ := dispatch_answering hc
      exact h y hy hf
    refine ⟨h.same e2, ?_, fun _ t st => hl⟩
    intro t hm
    rcases dispatch_evs { σ with bus := b } d with e | ⟨c', y, id', cb', st, _, hy, _, hf, e, e', _⟩ | ⟨_, _, _, _, _, _, _, _, e, _⟩
    · exact noev e t hm
    · rw [e] at hm; simp at hm
      obtain ⟨rfl, rfl, rfl, _⟩ := hm
      exact hl e'
    · rw [e] at hm; simp at hm
  | test c' id' n t f h1 h2 h3 => exact ⟨h, noev rfl, fun hn t' st' e => by cases e; exact hn _ _ h1⟩
  | store c' id' n t f h1 h2 h3 => exact ⟨h, noev rfl, fun hn t' st' e => by cases e; exact hn _ _ h1⟩
  | flag c' id' n t f h1 h2 h3 => exact ⟨h, noev rfl, fun hn t' st' e => by cases e; exact hn _ _ h1⟩
  | wake c' id' n t f h1 h2 h3 => exact ⟨h, noev rfl, fun hn t' st' e => by cases e; exact hn _ _ h1⟩
  | consumer q s topic b h1 h2 h3 h4 h5 h6 h7 h8 h9 h10 h11 =>
    refine ⟨?_, noev rfl, fun hn => hn⟩
    intro x hx
    simp only [List.getElem?_append] at hx
    split at hx
    · exact h x hx
    · have := List.mem_of_getElem? hx
      simp only [List.mem_singleton] at this
      subst this; exact nofun
  | request c' id' k t x hx => exact ⟨lost_register h hx rfl (reg (r := ⟨c', id', .user k, t, _⟩) rfl hno), noev rfl, fun hn => hn⟩
  | begin c' id' t onBus x hx ho => exact ⟨lost_register h hx rfl (reg (r := ⟨c', id', .frame _, t, _⟩) rfl hno), noev rfl, fun hn => hn⟩
  | _ => exact ⟨h.same rfl, noev rfl, fun hn => hn⟩

theorem drop_prefix {α : Type} {l m n : List α} (h1 : l <+: m) (h2 : m <+: n) : n.drop l.length = m.drop l.length ++ n.drop m.length := by
  obtain ⟨a, rfl⟩ := h1
  obtain ⟨b, rfl⟩ := h2
  simp

theorem exec_step {σ σ' : St} {a : Act} {as : List Act} (h : exec σ (a :: as) = .to σ') : ∃ τ, step σ a = .to τ ∧ exec τ as = .to σ' := by
  simp only [exec] at h
  cases e : step σ a with
  | cannot => rw [e] at h; cases h
  | undefined => rw [e] at h; cases h
  | to τ => rw [e] at h; exact ⟨τ, rfl, h⟩

theorem exec_mono : ∀ (as : List Act) {σ σ' : St}, exec σ as = .to σ' → Mono σ σ'
  | [], σ, σ', h => by cases h; exact Mono.refl _
  | a :: as, σ, σ', h => by
    obtain ⟨τ, h1, h2⟩ := exec_step h
    exact (mono_step h1).trans (exec_mono as h2)

theorem lost_exec {c : Nat} {id : Str} {cb : Cb} : ∀ (as : List Act) {σ σ' : St}, Reachable σ → Lost c id cb σ → exec σ as = .to σ' →
    (∀ r ∈ σ'.asked.drop σ.asked.length, ¬(r.cons = c ∧ r.id = id ∧ r.cb = cb)) →
    Lost c id cb σ' ∧ (∀ t, Ev.answered c id cb t ∉ σ'.evs.drop σ.evs.length)
  | [], σ, σ', _, h, he, _ => by cases he; exact ⟨h, by simp⟩
  | a :: as, σ, σ', hr, h, he, hno => by
    obtain ⟨τ, h1, h2⟩ := exec_step he
    have m1 := mono_step h1
    have m2 := exec_mono as h2
    rw [drop_prefix m1.asked m2.asked] at hno
    obtain ⟨g1, g2, _⟩ := lost_step hr.own h h1 (fun r hm => hno r (List.mem_append_left _ hm))
    obtain ⟨g3, g4⟩ := lost_exec as (hr.step h1) g1 h2 (fun r hm => hno r (List.mem_append_right _ hm))
    refine ⟨g3, fun t => ?_⟩
    rw [drop_prefix m1.evs m2.evs]
    intro hm
    rcases List.mem_append.1 hm with hm | hm
    · exact g2 t hm
    · exact g4 t hm

/-- The local variables of a call of `Request` are written by its own lambda only. -/
theorem frame_kept {σ σ' : St} {a : Act} (hr : Reachable σ) {n : Nat} {f : Frame} (hf : σ.frames[n]? = some f)
    (hn : NotIn f.cons f.id (.frame n) σ) (hs : step σ a = .to σ') :
    ∃ f', σ'.frames[n]? = some f' ∧ f'.cons = f.cons ∧ f'.id = f.id ∧ f'.response = f.response ∧ f'.waiting = f.waiting := by
  have other : ∀ {c : Nat} {id : Str} {m : Nat} {t : Tree} {st : Stage}, σ.cur = .answering c id (.frame m) t st → m ≠ n := by
    rintro c id m t st hc rfl
    obtain ⟨a, ha, rfl, rfl, e⟩ := (hr.hist.ansEv _ _ _ _ (hr.hist.curAns _ _ _ _ _ hc).1).1
    obtain ⟨g, hg, e1, e2⟩ := hr.calls.fwd a ha m e
    rw [hf] at hg; cases hg
    rw [← e1, ← e2] at hc
    exact hn _ _ hc
  have keep : ∀ {τ : St}, τ.frames = σ.frames →
      ∃ f', τ.frames[n]? = some f' ∧ f'.cons = f.cons ∧ f'.id = f.id ∧ f'.response = f.response ∧ f'.waiting = f.waiting :=
    fun e => ⟨f, by rw [e]; exact hf, rfl, rfl, rfl, rfl⟩
  have upd : ∀ {τ : St} {m : Nat} {g g' : Frame}, σ.frames[m]? = some g → τ.frames = σ.frames.set m g' →
      (m = n → g'.cons = g.cons ∧ g'.id = g.id ∧ g'.response = g.response ∧ g'.waiting = g.waiting) →
      ∃ f', τ.frames[n]? = some f' ∧ f'.cons = f.cons ∧ f'.id = f.id ∧ f'.response = f.response ∧ f'.waiting = f.waiting := by
    intro τ m g g' hg e hk
    refine ⟨_, by rw [e]; exact set_getElem? hf, ?_⟩
    split
    · rename_i e'
      subst e'
      rw [hf] at hg; cases hg
      exact hk rfl
    · exact ⟨rfl, rfl, rfl, rfl⟩
  cases step_eff hs with
  | endCb ch b h1 h2 h3 h4 h5 h6 => exact keep (endCb_same σ b ch).2.2.2.1
  | deliver ch b d h1 h2 h3 h4 h5 h6 => exact keep (dispatch_same { σ with bus := b } d).2.2.2.2.1
  | test c id m t g h1 h2 h3 => exact keep rfl
  | store c id m t g h1 h2 h3 => exact upd h2 rfl (fun e => absurd e (other h1))
  | flag c id m t g h1 h2 h3 => exact upd h2 rfl (fun e => absurd e (other h1))
  | wake c id m t g h1 h2 h3 => exact upd h2 rfl (fun e => absurd e (other h1))
  | begin c id t onBus x hx ho => exact ⟨f, getElem?_append_old hf, rfl, rfl, rfl, rfl⟩
  | send i p x b h1 h2 h3 =>
    cases hp : p.frame with
    | none => exact ⟨f, hf, rfl, rfl, rfl, rfl⟩
    | some m =>
      refine ⟨_, modify_getElem? hf, ?_⟩
      split <;> exact ⟨rfl, rfl, rfl, rfl⟩
  | look m g h1 h2 h3 => exact upd h1 rfl (fun _ => ⟨rfl, rfl, rfl, rfl⟩)
  | leave m g h1 h2 h3 => exact upd h1 rfl (fun _ => ⟨rfl, rfl, rfl, rfl⟩)
  | sleep m g h1 h2 => exact upd h1 rfl (fun _ => ⟨rfl, rfl, rfl, rfl⟩)
  | spurious m g h1 h2 => exact upd h1 rfl (fun _ => ⟨rfl, rfl, rfl, rfl⟩)
  | timeout m g h1 h2 => exact upd h1 rfl (fun _ => ⟨rfl, rfl, rfl, rfl⟩)
  | _ => exact keep rfl

/-- A blocking call registers its own lambda, once. -/
theorem asked_new {σ σ' : St} {a : Act} (hs : step σ a = .to σ') {r : Asked} (hr : r ∈ σ'.asked.drop σ.asked.length) {n : Nat}
    (hn : r.cb = .frame n) : σ.frames.length ≤ n := by
  have same : ∀ {τ : St}, τ.asked = σ.asked → r ∉ τ.asked.drop σ.asked.length := by intro τ e; rw [e]; simp
  cases step_eff hs with
  | endCb ch b h1 h2 h3 h4 h5 h6 => exact absurd hr (same (endCb_same σ b ch).2.2.2.2.2.2.2.1)
  | deliver ch b d h1 h2 h3 h4 h5 h6 => exact absurd hr (same (dispatch_same { σ with bus := b } d).2.2.2.2.2.2.1)
  | request c' id' k t x hx => simp [register] at hr; subst hr; cases hn
  | begin c' id' t onBus x hx ho => simp [register] at hr; subst hr; cases hn; exact Nat.le_refl _
  | _ => exact absurd hr (same rfl)

/-- A call of `Request` whose lambda has not been called has its initial local variables. -/
theorem untouched {σ : St} (h : Reachable σ) : ∀ (n : Nat) (f : Frame), σ.frames[n]? = some f →
    (∀ t, Ev.answered f.cons f.id (.frame n) t ∉ σ.evs) → f.response = .empty ∧ f.waiting = true := by
  refine reachable_induct (P := fun σ => ∀ (n : Nat) (f : Frame), σ.frames[n]? = some f →
    (∀ t, Ev.answered f.cons f.id (.frame n) t ∉ σ.evs) → f.response = .empty ∧ f.waiting = true) ?_ ?_ h
  · intro name b hb n f hf; simp at hf
  · intro σ a σ' hr ih hs n f' hf' hno
    cases hf : σ.frames[n]? with
    | some f =>
      have hm := mono_step hs
      obtain ⟨g, hg, e1, e2⟩ := hm.frames n f hf
      rw [hf'] at hg; cases hg
      rw [e1, e2] at hno
      have hno' : ∀ t, Ev.answered f.cons f.id (.frame n) t ∉ σ.evs := fun t ht => hno t (hm.evs.subset ht)
      obtain ⟨g, hg, _, _, e3, e4⟩ := frame_kept hr hf (fun t st hc => hno' t (hr.hist.curAns _ _ _ _ _ hc).1) hs
      rw [hf'] at hg; cases hg
      obtain ⟨i1, i2⟩ := ih n f hf hno'
      exact ⟨e3.trans i1, e4.trans i2⟩
    | none =>
      have hge := List.getElem?_eq_none_iff.1 hf
      have old : ∀ {τ : St}, τ.frames.length = σ.frames.length → τ.frames[n]? = some f' → False := by
        intro τ e e'
        have := (List.getElem?_eq_some_iff.1 e').1
        omega
      cases step_eff hs with
      | endCb ch b h1 h2 h3 h4 h5 h6 => exact (old (by rw [(endCb_same σ b ch).2.2.2.1]) hf').elim
      | deliver ch b d h1 h2 h3 h4 h5 h6 => exact (old (by rw [(dispatch_same { σ with bus := b } d).2.2.2.2.1]) hf').elim
      | begin c id t onBus x hx ho =>
        simp only [List.getElem?_append_right hge] at hf'
        have := List.mem_of_getElem? hf'
        simp only [List.mem_singleton] at this
        subst this; exact ⟨rfl, rfl⟩
      | send i p x b h1 h2 h3 =>
        refine (old ?_ hf').elim
        cases p.frame <;> simp
      | _ => exact (old (by first | rfl | simp) hf').elim

/-- Registering another callback under the id. -/
theorem lost_now {σ τ : St} {a : Act} {r : Asked} {cb : Cb} (hs : step σ a = .to τ) (hr : r ∈ τ.asked.drop σ.asked.length)
    (hne : r.cb ≠ cb) : Lost r.cons r.id cb τ := by
  have same : ∀ {τ : St}, τ.asked = σ.asked → r ∉ τ.asked.drop σ.asked.length := by intro τ e; rw [e]; simp
  have put : ∀ {τ : St} {c : Nat} {x : Cons} {id : Str} {cb' : Cb}, σ.cons[c]? = some x →
      τ.cons = σ.cons.set c { x with opened := x.opened.insert id cb' } → cb' ≠ cb → Lost c id cb τ := by
    intro τ c x id cb' hx e hne y hy
    rw [e] at hy
    rcases set_inv hy with ⟨_, rfl⟩ | ⟨hn, _⟩
    · simp only [Dict.find_insert, if_pos]
      intro e'; cases e'; exact hne rfl
    · exact absurd rfl hn
  cases step_eff hs with
  | endCb ch b h1 h2 h3 h4 h5 h6 => exact absurd hr (same (endCb_same σ b ch).2.2.2.2.2.2.2.1)
  | deliver ch b d h1 h2 h3 h4 h5 h6 => exact absurd hr (same (dispatch_same { σ with bus := b } d).2.2.2.2.2.2.1)
  | request c' id' k t x hx => simp [register] at hr; subst hr; exact put hx rfl hne
  | begin c' id' t onBus x hx ho => simp [register] at hr; subst hr; exact put hx rfl hne
  | _ => exact absurd hr (same rfl)

/-- The event that registers a request calls no callback. -/
theorem asked_evs {σ τ : St} {a : Act} {r : Asked} (hs : step σ a = .to τ) (hr : r ∈ τ.asked.drop σ.asked.length) : τ.evs = σ.evs := by
  have same : ∀ {τ : St}, τ.asked = σ.asked → r ∉ τ.asked.drop σ.asked.length := by intro τ e; rw [e]; simp
  cases step_eff hs with
  | endCb ch b h1 h2 h3 h4 h5 h6 => exact absurd hr (same (endCb_same σ b ch).2.2.2.2.2.2.2.1)
  | deliver ch b d h1 h2 h3 h4 h5 h6 => exact absurd hr (same (dispatch_same { σ with bus := b } d).2.2.2.2.2.2.1)
  | request c' id' k t x hx => rfl
  | begin c' id' t onBus x hx ho => rfl
  | _ => exact absurd hr (same rfl)

theorem lost_frame {c n : Nat} {id : Str} : ∀ (as : List Act) {σ σ' : St}, Reachable σ → Lost c id (.frame n) σ → n < σ.frames.length →
    exec σ as = .to σ' → (∀ t, Ev.answered c id (.frame n) t ∉ σ'.evs.drop σ.evs.length)
  | [], σ, σ', _, _, _, he => by cases he; simp
  | a :: as, σ, σ', hr, h, hl, he => by
    obtain ⟨τ, h1, h2⟩ := exec_step he
    have m1 := mono_step h1
    have m2 := exec_mono as h2
    obtain ⟨g1, g2, _⟩ := lost_step hr.own h h1 (fun r hm e => by have := asked_new h1 hm e.2.2; omega)
    obtain ⟨f', hf', _⟩ := m1.frames n _ (List.getElem?_eq_getElem hl)
    have g4 := lost_frame as (hr.step h1) g1 (List.getElem?_eq_some_iff.1 hf').1 h2
    intro t
    rw [drop_prefix m1.evs m2.evs]
    intro hm
    rcases List.mem_append.1 hm with hm | hm
    · exact g2 t hm
    · exact g4 t hm

theorem lastAsked_append (c : Nat) (id : Str) (l : List Asked) (r : Asked) :
    lastAsked c id (l ++ [r]) = if r.cons = c ∧ r.id = id then some r.cb else lastAsked c id l := by
  unfold lastAsked
  rw [List.filter_append]
  by_cases h : r.cons = c ∧ r.id = id
  · simp [h]
  · have : ([r].filter (fun a => a.cons == c && a.id == id)) = [] := by simpa using h
    rw [this, if_neg h]; simp

/-- What is in the table was registered last. -/
def Newest (σ : St) : Prop := ∀ (c : Nat) (x : Cons) (id : Str) (cb : Cb), σ.cons[c]? = some x → x.opened.find id = some cb →
  lastAsked c id σ.asked = some cb

theorem newest_register {σ σ' : St} (h : Newest σ) {c : Nat} {x : Cons} {id : Str} {cb : Cb} {t : Tree} {u : Nat}
    (hx : σ.cons[c]? = some x) (hc : σ'.cons = σ.cons.set c { x with opened := x.opened.insert id cb })
    (ha : σ'.asked = σ.asked ++ [⟨c, id, cb, t, u⟩]) : Newest σ' := by
  intro k y id' cb' hy hf
  rw [ha, lastAsked_append]
  rw [hc] at hy
  rcases set_inv hy with ⟨rfl, rfl⟩ | ⟨hn, hy⟩
  · simp only [Dict.find_insert] at hf
    split at hf
    · rename_i e
      cases hf; rw [if_pos ⟨rfl, e⟩]
    · rename_i e
      rw [if_neg (fun e' => e e'.2)]; exact h _ x _ _ hx hf
  · rw [if_neg (fun e' => by first | exact hn e'.1 | exact hn e'.1.symm)]; exact h k y _ _ hy hf

theorem newest_step {σ σ' : St} {a : Act} (ho : Own σ) (h : Newest σ) (hs : step σ a = .to σ') : Newest σ' := by
  have same : ∀ {τ : St}, τ.cons = σ.cons → τ.asked = σ.asked → Newest τ := by
    intro τ e1 e2 c x id cb hx hf
    rw [e1] at hx; rw [e2]; exact h c x id cb hx hf
  cases step_eff hs with
  | endCb ch b h1 h2 h3 h4 h5 h6 =>
    intro c x id cb hx hf
    rw [(endCb_same σ b ch).2.2.2.2.2.2.2.1]
    obtain ⟨y, hy, rfl | ⟨id', cb', t, st, _, _, rfl⟩⟩ := endCb_cons hx
    · exact h _ _ _ _ hy hf
    · simp only [Dict.find_erase (ho.cons _ _ hy).sorted] at hf
      split at hf
      · cases hf
      · exact h _ _ _ _ hy hf
  | deliver ch b d h1 h2 h3 h4 h5 h6 =>
    exact same (dispatch_same { σ with bus := b } d).2.1 (dispatch_same { σ with bus := b } d).2.2.2.2.2.2.1
  | consumer q s topic b h1 h2 h3 h4 h5 h6 h7 h8 h9 h10 h11 =>
    intro c x id cb hx hf
    simp only [List.getElem?_append] at hx
    split at hx
    · exact h c x id cb hx hf
    · have := List.mem_of_getElem? hx
      simp only [List.mem_singleton] at this
      subst this; cases hf
  | request c' id' k t x hx => exact newest_register h hx rfl rfl
  | begin c' id' t onBus x hx ho => exact newest_register h hx rfl rfl
  | _ => exact same rfl rfl

theorem Reachable.newest {σ : St} (h : Reachable σ) : Newest σ := by
  refine reachable_induct (P := Newest) ?_ (fun σ a σ' hr hp hs => newest_step hr.own hp hs) h
  intro name b hb c x id cb hx
  simp at hx

/-- A callback is called out of the table. -/
theorem answered_open {σ σ' : St} {a : Act} (hs : step σ a = .to σ') {c : Nat} {id : Str} {cb : Cb} {t : Tree}
    (he : Ev.answered c id cb t ∈ σ'.evs.drop σ.evs.length) : ∃ x, σ.cons[c]? = some x ∧ x.opened.find id = some cb := by
  have same : ∀ {τ : St}, τ.evs = σ.evs → Ev.answered c id cb t ∉ τ.evs.drop σ.evs.length := by intro τ e; rw [e]; simp
  cases step_eff hs with
  | endCb ch b h1 h2 h3 h4 h5 h6 => exact absurd he (same (endCb_same σ b ch).2.2.2.2.2.2.1)
  | deliver ch b d h1 h2 h3 h4 h5 h6 =>
    rcases dispatch_evs { σ with bus := b } d with e | ⟨c', y, id', cb', st, _, hy, _, hf, e, e', _⟩ | ⟨_, _, _, _, _, _, _, _, e, _⟩
    · exact absurd he (same e)
    · rw [e] at he; simp at he
      obtain ⟨rfl, rfl, rfl, _⟩ := he
      exact ⟨y, hy, hf⟩
    · rw [e] at he; simp at he
  | _ => exact absurd he (same rfl)

/-- A call of `Request` with `waiting` set ends by its timeout only. -/
theorem ends_by_timeout {σ σ' : St} {a : Act} {n : Nat} {f f' : Frame} (hf : σ.frames[n]? = some f) (hw : f.waiting = true)
    (hp : f.pc ≠ .done) (hs : step σ a = .to σ') (hf' : σ'.frames[n]? = some f') (hd : f'.pc = .done) : a = .timeout n := by
  have keep : ∀ {τ : St} {P : Prop}, τ.frames = σ.frames → τ.frames[n]? = some f' → P := by
    intro τ P e e'
    rw [e, hf] at e'; cases e'; exact absurd hd hp
  have upd : ∀ {P : Prop} {m : Nat} {g g' : Frame}, σ.frames[m]? = some g → (σ.frames.set m g')[n]? = some f' →
      (m = n → g = f → g'.pc = .done → P) → P := by
    intro P m g g' hg e' hk
    rw [set_getElem? hf] at e'
    split at e'
    · rename_i e
      cases e'
      subst e
      rw [hf] at hg; cases hg
      exact hk rfl rfl hd
    · cases e'; exact absurd hd hp
  cases step_eff hs with
  | endCb ch b h1 h2 h3 h4 h5 h6 => exact keep (endCb_same σ b ch).2.2.2.1 hf'
  | deliver ch b d h1 h2 h3 h4 h5 h6 => exact keep (dispatch_same { σ with bus := b } d).2.2.2.2.1 hf'
  | test c id m t g h1 h2 h3 => exact keep rfl hf'
  | store c id m t g h1 h2 h3 => exact upd h2 hf' (fun _ e hd => by subst e; exact absurd hd hp)
  | flag c id m t g h1 h2 h3 => exact upd h2 hf' (fun _ e hd => by subst e; exact absurd hd hp)
  | wake c id m t g h1 h2 h3 =>
    refine upd h2 hf' (fun _ e hd => ?_)
    subst e
    simp only at hd
    split at hd
    · cases hd
    · exact absurd hd hp
  | begin c id t onBus x hx ho =>
    rw [getElem?_append_old hf] at hf'; cases hf'; exact absurd hd hp
  | send i p x b h1 h2 h3 =>
    cases hp' : p.frame with
    | none => simp only [hp'] at hf'; rw [hf] at hf'; cases hf'; exact absurd hd hp
    | some m =>
      simp only [hp'] at hf'
      rw [modify_getElem? hf] at hf'
      split at hf'
      · cases hf'; cases hd
      · cases hf'; exact absurd hd hp
  | look m g h1 h2 h3 => exact upd h1 hf' (fun _ _ hd => by cases hd)
  | leave m g h1 h2 h3 => exact upd h1 hf' (fun _ e _ => by subst e; rw [hw] at h3; cases h3)
  | sleep m g h1 h2 => exact upd h1 hf' (fun _ _ hd => by cases hd)
  | spurious m g h1 h2 => exact upd h1 hf' (fun _ _ hd => by cases hd)
  | timeout m g h1 h2 => exact upd h1 hf' (fun e _ _ => by rw [e])
  | _ => exact keep rfl hf'

end LP.Action
