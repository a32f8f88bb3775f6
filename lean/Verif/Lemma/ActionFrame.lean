import Verif.Lemma.ActionTrack
/-!
# Blocking calls
-/
namespace LP.Action
open LP.Bus (Delivery)

/-- The bookkeeping of the blocking calls. -/
structure Calls (σ : St) : Prop where
  back : ∀ (n : Nat) (f : Frame), σ.frames[n]? = some f → IsAsked σ f.cons f.id (.frame n)
  fwd : ∀ a ∈ σ.asked, ∀ n, a.cb = .frame n → ∃ f, σ.frames[n]? = some f ∧ f.cons = a.cons ∧ f.id = a.id
  result : ∀ (n : Nat) (f : Frame), σ.frames[n]? = some f → f.result = if f.pc = .done then some f.response else none
  pend : ∀ p ∈ σ.pending, ∀ n, p.frame = some n → ∃ f, σ.frames[n]? = some f ∧ f.pc = .sending ∧ f.cons = p.cons ∧ f.id = p.id
  uniq : ∀ (i j : Nat) (p q : Pending) (n : Nat), σ.pending[i]? = some p → σ.pending[j]? = some q → p.frame = some n → q.frame = some n → i = j
  sending : ∀ (n : Nat) (f : Frame), σ.frames[n]? = some f → f.pc = .sending → ∃ p ∈ σ.pending, p.frame = some n
  inside : ∀ n, σ.inside = some n → n < σ.frames.length
  block : blocked σ = true → clientCode σ.cur = true

theorem isAsked_congr {σ σ' : St} (h : σ'.asked = σ.asked) {c : Nat} {id : Str} {cb : Cb} : IsAsked σ' c id cb ↔ IsAsked σ c id cb := by
  unfold IsAsked; rw [h]

theorem Calls.keep {σ σ' : St} (h : Calls σ) (hf : σ'.frames = σ.frames) (ha : σ'.asked = σ.asked) (hp : σ'.pending = σ.pending)
    (hi : σ'.inside = σ.inside) (hb : blocked σ = true → clientCode σ.cur = true → clientCode σ'.cur = true) : Calls σ' := by
  have hbl : blocked σ' = blocked σ := by unfold blocked; rw [hi, hf]
  refine ⟨?_, ?_, ?_, ?_, ?_, ?_, ?_, ?_⟩
  · rw [hf]; intro n f h1; exact (isAsked_congr ha).2 (h.back n f h1)
  · rw [hf, ha]; exact h.fwd
  · rw [hf]; exact h.result
  · rw [hf, hp]; exact h.pend
  · rw [hp]; exact h.uniq
  · rw [hf, hp]; exact h.sending
  · rw [hf, hi]; exact h.inside
  · rw [hbl]; intro h1; exact hb h1 (h.block h1)

theorem blocked_iff {σ : St} : blocked σ = true ↔ ∃ n f, σ.inside = some n ∧ σ.frames[n]? = some f ∧ f.pc ≠ .done := by
  unfold blocked
  constructor
  · intro h
    split at h
    · cases h
    · split at h
      · rename_i n hn _ f hf; exact ⟨n, f, hn, hf, by simpa using h⟩
      · cases h
  · rintro ⟨n, f, h1, h2, h3⟩
    rw [h1]; simp only [h2]; simpa using h3

theorem Calls.update {σ σ' : St} (h : Calls σ) {n : Nat} {f g : Frame} (hf : σ.frames[n]? = some f) (hfr : σ'.frames = σ.frames.set n g)
    (h1 : g.cons = f.cons) (h2 : g.id = f.id) (h3 : g.result = if g.pc = .done then some g.response else none)
    (h4 : g.pc = .sending ↔ f.pc = .sending) (h5 : f.pc = .done → g.pc = .done) (ha : σ'.asked = σ.asked) (hp : σ'.pending = σ.pending)
    (hi : σ'.inside = σ.inside) (hcc : clientCode σ'.cur = clientCode σ.cur) : Calls σ' := by
  refine ⟨?_, ?_, ?_, ?_, ?_, ?_, ?_, ?_⟩
  · rw [hfr]; intro m f' hm
    rw [isAsked_congr ha]
    rcases set_inv hm with ⟨rfl, rfl⟩ | ⟨_, hm⟩
    · rw [h1, h2]; exact h.back _ _ hf
    · exact h.back _ _ hm
  · rw [hfr, ha]; intro a ha' m hm
    obtain ⟨f', e1, e2, e3⟩ := h.fwd a ha' m hm
    refine ⟨_, set_getElem? e1, ?_⟩
    split
    · rename_i e; subst e; rw [hf] at e1; cases e1; rw [h1, h2]; exact ⟨e2, e3⟩
    · exact ⟨e2, e3⟩
  · rw [hfr]; intro m f' hm
    rcases set_inv hm with ⟨rfl, rfl⟩ | ⟨_, hm⟩
    · exact h3
    · exact h.result _ _ hm
  · rw [hfr, hp]; intro p hp' m hm
    obtain ⟨f', e1, e2, e3, e4⟩ := h.pend p hp' m hm
    refine ⟨_, set_getElem? e1, ?_⟩
    split
    · rename_i e; subst e; rw [hf] at e1; cases e1; rw [h1, h2]; exact ⟨h4.2 e2, e3, e4⟩
    · exact ⟨e2, e3, e4⟩
  · rw [hp]; exact h.uniq
  · rw [hfr, hp]; intro m f' hm hpc
    rcases set_inv hm with ⟨rfl, rfl⟩ | ⟨_, hm⟩
    · exact h.sending _ _ hf (h4.1 hpc)
    · exact h.sending _ _ hm hpc
  · rw [hfr, hi]; intro m hm; rw [List.length_set]; exact h.inside m hm
  · rw [blocked_iff, hcc, hfr, hi]
    rintro ⟨m, f', e1, e2, e3⟩
    apply h.block
    rw [blocked_iff]
    rcases set_inv e2 with ⟨rfl, rfl⟩ | ⟨_, hm⟩
    · exact ⟨_, f, e1, hf, fun e => e3 (h5 e)⟩
    · exact ⟨m, f', e1, hm, e3⟩

theorem Calls.register {σ σ' : St} (h : Calls σ) (m : Mono σ σ') {c : Nat} {id : Str} {k : Nat} {t : Tree} {s : Nat}
    (hfr : σ'.frames = σ.frames) (ha : σ'.asked = σ.asked ++ [⟨c, id, .user k, t, s⟩])
    (hp : σ'.pending = σ.pending ++ [⟨c, id, t, none⟩]) (hi : σ'.inside = σ.inside) (hcur : σ'.cur = σ.cur) : Calls σ' := by
  refine ⟨?_, ?_, ?_, ?_, ?_, ?_, ?_, ?_⟩
  · rw [hfr]; intro n f h1; exact (h.back n f h1).mono m
  · rw [hfr, ha]; intro a ha' n hn
    rcases List.mem_append.1 ha' with h1 | h1
    · exact h.fwd a h1 n hn
    · rw [List.mem_singleton] at h1; subst h1; cases hn
  · rw [hfr]; exact h.result
  · rw [hfr, hp]; intro p hp' n hn
    rcases List.mem_append.1 hp' with h1 | h1
    · exact h.pend p h1 n hn
    · rw [List.mem_singleton] at h1; subst h1; cases hn
  · rw [hp]; intro i j p q n h1 h2 h3 h4
    rcases getElem?_append_one h1 with h1 | ⟨_, rfl⟩
    · rcases getElem?_append_one h2 with h2 | ⟨_, rfl⟩
      · exact h.uniq i j p q n h1 h2 h3 h4
      · cases h4
    · cases h3
  · rw [hfr, hp]; intro n f h1 h2
    obtain ⟨p, e1, e2⟩ := h.sending n f h1 h2
    exact ⟨p, List.mem_append_left _ e1, e2⟩
  · rw [hfr, hi]; exact h.inside
  · have hbl : blocked σ' = blocked σ := by unfold blocked; rw [hi, hfr]
    rw [hbl, hcur]; exact h.block

theorem Calls.begin {σ σ' : St} (h : Calls σ) (m : Mono σ σ') {c : Nat} {id : Str} {t : Tree} {s : Nat} {o : Bool}
    (hfr : σ'.frames = σ.frames ++ [⟨c, id, .sending, true, .empty, none⟩])
    (ha : σ'.asked = σ.asked ++ [⟨c, id, .frame σ.frames.length, t, s⟩])
    (hp : σ'.pending = σ.pending ++ [⟨c, id, t, some σ.frames.length⟩])
    (hi : σ'.inside = if o then some σ.frames.length else σ.inside) (hcur : σ'.cur = σ.cur)
    (ho : o = true → clientCode σ.cur = true) : Calls σ' := by
  have hself : IsAsked σ' c id (.frame σ.frames.length) := by
    refine ⟨⟨c, id, .frame σ.frames.length, t, s⟩, by rw [ha]; simp, rfl, rfl, rfl⟩
  have hnp : ∀ p ∈ σ.pending, p.frame ≠ some σ.frames.length := by
    intro p hp' e
    obtain ⟨f, hf, _⟩ := h.pend p hp' _ e
    rw [List.getElem?_eq_none (Nat.le_refl _)] at hf; cases hf
  refine ⟨?_, ?_, ?_, ?_, ?_, ?_, ?_, ?_⟩
  · rw [hfr]; intro n f h1
    rcases getElem?_append_one h1 with h1 | ⟨rfl, rfl⟩
    · exact (h.back n f h1).mono m
    · exact hself
  · rw [hfr, ha]; intro a ha' n hn
    rcases List.mem_append.1 ha' with h1 | h1
    · obtain ⟨f, e1, e2⟩ := h.fwd a h1 n hn
      exact ⟨f, getElem?_append_old e1, e2⟩
    · rw [List.mem_singleton] at h1; subst h1; cases hn
      exact ⟨⟨c, id, .sending, true, .empty, none⟩, by simp only [List.getElem?_append_right (Nat.le_refl _), Nat.sub_self, List.getElem?_cons_zero], rfl, rfl⟩
  · rw [hfr]; intro n f h1
    rcases getElem?_append_one h1 with h1 | ⟨rfl, rfl⟩
    · exact h.result n f h1
    · rfl
  · rw [hfr, hp]; intro p hp' n hn
    rcases List.mem_append.1 hp' with h1 | h1
    · obtain ⟨f, e1, e2⟩ := h.pend p h1 n hn
      exact ⟨f, getElem?_append_old e1, e2⟩
    · rw [List.mem_singleton] at h1; subst h1; cases hn
      exact ⟨⟨c, id, .sending, true, .empty, none⟩, by simp only [List.getElem?_append_right (Nat.le_refl _), Nat.sub_self, List.getElem?_cons_zero], rfl, rfl, rfl⟩
  · rw [hp]; intro i j p q n h1 h2 h3 h4
    rcases getElem?_append_one h1 with h1 | ⟨e1, rfl⟩
    · rcases getElem?_append_one h2 with h2 | ⟨_, rfl⟩
      · exact h.uniq i j p q n h1 h2 h3 h4
      · cases h4; exact absurd h3 (hnp p (List.mem_of_getElem? h1))
    · rcases getElem?_append_one h2 with h2 | ⟨e2, _⟩
      · cases h3; exact absurd h4 (hnp q (List.mem_of_getElem? h2))
      · rw [e1, e2]
  · rw [hfr, hp]; intro n f h1 h2
    rcases getElem?_append_one h1 with h1 | ⟨rfl, rfl⟩
    · obtain ⟨p, e1, e2⟩ := h.sending n f h1 h2
      exact ⟨p, List.mem_append_left _ e1, e2⟩
    · exact ⟨_, List.mem_append_right _ (List.mem_singleton.2 rfl), rfl⟩
  · rw [hfr, hi]; intro n hn
    rw [List.length_append, List.length_singleton]
    split at hn
    · cases hn; omega
    · have := h.inside n hn; omega
  · rw [blocked_iff, hcur, hi, hfr]
    rintro ⟨n, f, e1, e2, e3⟩
    cases o with
    | true => exact ho rfl
    | false =>
      simp only [Bool.false_eq_true, if_false] at e1
      apply h.block
      rw [blocked_iff]
      rcases getElem?_append_one e2 with e2 | ⟨rfl, _⟩
      · exact ⟨n, f, e1, e2, e3⟩
      · exact absurd (h.inside _ e1) (by omega)

theorem Calls.send {σ σ' : St} (h : Calls σ) {i : Nat} {p : Pending} (hpi : σ.pending[i]? = some p)
    (hfr : σ'.frames = match p.frame with
                       | none => σ.frames
                       | some n => σ.frames.modify n (fun f => { f with pc := .check }))
    (ha : σ'.asked = σ.asked) (hp : σ'.pending = σ.pending.eraseIdx i)
    (hi : σ'.inside = σ.inside) (hcur : σ'.cur = σ.cur) : Calls σ' := by
  -- how frames are related
  have hto : ∀ (n : Nat) (f : Frame), σ.frames[n]? = some f → ∃ f', σ'.frames[n]? = some f' ∧ f'.cons = f.cons ∧ f'.id = f.id ∧
      f'.result = f.result ∧ f'.response = f.response ∧ (f'.pc = .done ↔ f.pc = .done) ∧
      ((p.frame = some n ∧ f'.pc = .check) ∨ (p.frame ≠ some n ∧ f'.pc = f.pc)) := by
    intro n f hf
    rw [hfr]
    cases hpf : p.frame with
    | none => exact ⟨f, hf, rfl, rfl, rfl, rfl, Iff.rfl, .inr ⟨by simp, rfl⟩⟩
    | some m =>
      refine ⟨_, modify_getElem? hf, ?_⟩
      by_cases e : n = m
      · subst e
        obtain ⟨f2, g1, g2, _⟩ := h.pend p (List.mem_of_getElem? hpi) _ hpf
        rw [hf] at g1; cases g1
        simp [g2]
      · rw [if_neg e]
        refine ⟨rfl, rfl, rfl, rfl, Iff.rfl, .inr ⟨?_, rfl⟩⟩
        intro e'; cases e'; exact e rfl
  have hfrom : ∀ (n : Nat) (f' : Frame), σ'.frames[n]? = some f' → ∃ f, σ.frames[n]? = some f := by
    intro n f' hf'
    have hl : σ'.frames.length = σ.frames.length := by rw [hfr]; split <;> simp
    have : n < σ.frames.length := by rw [← hl]; exact (List.getElem?_eq_some_iff.1 hf').1
    exact ⟨_, List.getElem?_eq_getElem this⟩
  refine ⟨?_, ?_, ?_, ?_, ?_, ?_, ?_, ?_⟩
  · intro n f' hf'
    obtain ⟨f, hf⟩ := hfrom n f' hf'
    obtain ⟨f2, e0, e1, e2, _⟩ := hto n f hf
    rw [hf'] at e0; cases e0
    rw [isAsked_congr ha, e1, e2]; exact h.back n f hf
  · rw [ha]; intro a ha' n hn
    obtain ⟨f, g1, g2, g3⟩ := h.fwd a ha' n hn
    obtain ⟨f2, e0, e1, e2, _⟩ := hto n f g1
    exact ⟨f2, e0, by rw [e1, g2], by rw [e2, g3]⟩
  · intro n f' hf'
    obtain ⟨f, hf⟩ := hfrom n f' hf'
    obtain ⟨f2, e0, _, _, e3, e4, e5, _⟩ := hto n f hf
    rw [hf'] at e0; cases e0
    rw [e3, e4, h.result n f hf]
    simp only [e5]
  · rw [hp]; intro q hq n hn
    obtain ⟨j, hj, hqj⟩ := List.mem_eraseIdx_iff_getElem?.1 hq
    obtain ⟨f, g1, g2, g3, g4⟩ := h.pend q (List.mem_of_getElem? hqj) n hn
    obtain ⟨f2, e0, e1, e2, _, _, _, e6⟩ := hto n f g1
    refine ⟨f2, e0, ?_, by rw [e1, g3], by rw [e2, g4]⟩
    rcases e6 with ⟨e6, _⟩ | ⟨_, e6⟩
    · exact absurd (h.uniq j i q p n hqj hpi hn e6) hj
    · rw [e6, g2]
  · rw [hp]; intro j k q r n h1 h2 h3 h4
    rw [List.getElem?_eraseIdx] at h1 h2
    split at h1 <;> split at h2
    · exact h.uniq _ _ _ _ _ h1 h2 h3 h4
    · have := h.uniq _ _ _ _ _ h1 h2 h3 h4; omega
    · have := h.uniq _ _ _ _ _ h1 h2 h3 h4; omega
    · have := h.uniq _ _ _ _ _ h1 h2 h3 h4; omega
  · rw [hp]; intro n f' hf' hpc
    obtain ⟨f, hf⟩ := hfrom n f' hf'
    obtain ⟨f2, e0, _, _, _, _, _, e6⟩ := hto n f hf
    rw [hf'] at e0; cases e0
    rcases e6 with ⟨_, e6⟩ | ⟨e5, e6⟩
    · rw [hpc] at e6; cases e6
    · obtain ⟨q, g1, g2⟩ := h.sending n f hf (by rw [← e6, hpc])
      obtain ⟨j, hj⟩ := List.mem_iff_getElem?.1 g1
      refine ⟨q, List.mem_eraseIdx_iff_getElem?.2 ⟨j, ?_, hj⟩, g2⟩
      rintro rfl
      rw [hpi] at hj; cases hj; exact e5 g2
  · rw [hi]; intro n hn
    have := h.inside n hn
    obtain ⟨f2, e0, _⟩ := hto n _ (List.getElem?_eq_getElem this)
    exact (List.getElem?_eq_some_iff.1 e0).1
  · rw [blocked_iff, hcur, hi]
    rintro ⟨n, f', e1, e2, e3⟩
    apply h.block
    rw [blocked_iff]
    obtain ⟨f, hf⟩ := hfrom n f' e2
    obtain ⟨f2, e0, _, _, _, _, e5, _⟩ := hto n f hf
    rw [e2] at e0; cases e0
    exact ⟨n, f, e1, hf, fun e => e3 (e5.2 e)⟩

theorem calls_step {σ σ' : St} {a : Act} (h : Calls σ) (hs : step σ a = .to σ') : Calls σ' := by
  have m := mono_step hs
  cases step_eff hs with
  | client a b h1 h2 => exact h.keep rfl rfl rfl rfl (fun _ h => h)
  | endCb c b h1 h2 h3 h4 h5 h6 =>
    obtain ⟨e1, e2, e3, e4, e5, e6, e7, e8, e9⟩ := endCb_same σ b c
    refine ⟨?_, ?_, ?_, ?_, ?_, ?_, ?_, ?_⟩
    · rw [e4]; intro n f h1; exact (isAsked_congr e8).2 (h.back n f h1)
    · rw [e4, e8]; exact h.fwd
    · rw [e4]; exact h.result
    · rw [e4, e3]; exact h.pend
    · rw [e3]; exact h.uniq
    · rw [e4, e3]; exact h.sending
    · rw [e6]; intro n hn; cases hn
    · rw [blocked_iff, e6]; rintro ⟨n, f, hn, _⟩; cases hn
  | quiet c b h1 h2 h3 h4 h5 => exact h.keep rfl rfl rfl rfl (fun _ h => h)
  | deliver c b d h1 h2 h3 h4 h5 h6 =>
    obtain ⟨e1, e2, e3, e4, e5, e6, e7, e8, e9⟩ := dispatch_same { σ with bus := b } d
    exact h.keep e5 e7 e4 e6 (fun h' => absurd h' (by rw [h1]; decide))
  | test c id n t f h1 h2 h3 =>
    exact h.keep rfl rfl rfl rfl (fun _ h' => absurd h' (by rw [h1]; simp [clientCode]))
  | store c id n t f h1 h2 h3 =>
    refine h.update h2 rfl rfl rfl ?_ Iff.rfl (fun h => h) rfl rfl rfl (by rw [h1]; rfl)
    have := h.result n f h2
    rw [if_neg h3] at this ⊢; exact this
  | flag c id n t f h1 h2 h3 =>
    refine h.update h2 rfl rfl rfl ?_ Iff.rfl (fun h => h) rfl rfl rfl (by rw [h1]; rfl)
    exact h.result n f h2
  | wake c id n t f h1 h2 h3 =>
    refine h.update h2 rfl rfl rfl ?_ ?_ (fun h => absurd h h3) rfl rfl rfl (by rw [h1]; rfl)
    · have := h.result n f h2
      rw [if_neg h3] at this
      simp only
      rw [this, if_neg]
      split
      · decide
      · exact h3
    · simp only
      split
      · rename_i e; rw [e]; decide
      · exact Iff.rfl
  | consumer q s topic b h1 h2 h3 h4 h5 h6 h7 h8 h9 h10 h11 => exact h.keep rfl rfl rfl rfl (fun _ h => h)
  | provider s q topic cb b h1 h2 h3 h4 h5 h6 h7 h8 h9 h10 h11 => exact h.keep rfl rfl rfl rfl (fun _ h => h)
  | reset p => exact h.keep rfl rfl rfl rfl (fun _ h => h)
  | request c id k t x hx => exact h.register m rfl rfl rfl rfl rfl
  | begin c id t onBus x hx ho => exact h.begin m rfl rfl rfl rfl rfl (fun e => (ho e).1)
  | send i p x b h1 h2 h3 => exact h.send h1 rfl rfl rfl rfl rfl
  | respond p id t x b h1 h2 => exact h.keep rfl rfl rfl rfl (fun _ h => h)
  | look n f h1 h2 h3 =>
    have := h.result n f h1
    refine h.update h1 rfl rfl rfl ?_ (by rw [h2]; simp) (by rw [h2]; simp) rfl rfl rfl rfl
    rw [this, h2]; rfl
  | leave n f h1 h2 h3 =>
    exact h.update h1 rfl rfl rfl rfl (by rw [h2]; simp [finish]) (by rw [h2]; simp) rfl rfl rfl rfl
  | sleep n f h1 h2 =>
    have := h.result n f h1
    refine h.update h1 rfl rfl rfl ?_ (by rw [h2]; simp) (by rw [h2]; simp) rfl rfl rfl rfl
    rw [this, h2]; rfl
  | spurious n f h1 h2 =>
    have := h.result n f h1
    refine h.update h1 rfl rfl rfl ?_ (by rw [h2]; simp) (by rw [h2]; simp) rfl rfl rfl rfl
    rw [this, h2]; rfl
  | timeout n f h1 h2 =>
    exact h.update h1 rfl rfl rfl rfl (by rw [h2]; simp [finish]) (by rw [h2]; simp) rfl rfl rfl rfl

theorem Reachable.calls {σ : St} (h : Reachable σ) : Calls σ := by
  refine reachable_induct (P := Calls) ?_ (fun σ a σ' hr hp hs => calls_step hp hs) h
  intro name b hb
  refine ⟨?_, ?_, ?_, ?_, ?_, ?_, ?_, ?_⟩ <;> simp [blocked]

end LP.Action
