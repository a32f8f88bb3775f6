import Verif.Lemma.ActionFrame
/-!
# What a blocking call has got so far
-/
namespace LP.Action
open LP.Bus (Delivery)

/-- The local variables of every blocking call reflect the progress of its callback. -/
def Content (σ : St) : Prop := Distinct σ → ∀ (n : Nat) (f : Frame), σ.frames[n]? = some f →
  f.response = (stored σ f.cons f.id).getD .empty ∧ f.waiting = !signalled σ f.cons f.id

theorem stored_congr {σ σ' : St} {c : Nat} {id : Str} (h1 : answers c id σ'.evs = answers c id σ.evs)
    (h2 : stageOf c id σ'.cur = stageOf c id σ.cur) : stored σ' c id = stored σ c id ∧ signalled σ' c id = signalled σ c id := by
  have : stored σ' c id = stored σ c id := by unfold stored; rw [h1, h2]
  exact ⟨this, by unfold signalled; rw [h2, this]⟩

theorem distinct_asked {σ : St} (hd : Distinct σ) {c : Nat} {id : Str} {cb cb' : Cb} (h : IsAsked σ c id cb) (h' : IsAsked σ c id cb') :
    cb = cb' := by
  obtain ⟨a, ha, e1, e2, e3⟩ := h
  obtain ⟨b, hb, f1, f2, f3⟩ := h'
  have := distinct_eq hd ha hb (by rw [e1, f1]) (by rw [e2, f2])
  rw [← e3, ← f3, this]

theorem frame_not_threw {σ : St} (hi : Hist σ) (hk : Calls σ) (hd : Distinct σ) {n : Nat} {f : Frame} (hf : σ.frames[n]? = some f) :
    (f.cons, f.id) ∉ σ.threw := by
  intro h
  obtain ⟨k, hk'⟩ := hi.threw _ _ h
  have := distinct_asked hd hk' (hk.back n f hf)
  cases this

theorem frame_track {σ : St} (hi : Hist σ) (hk : Calls σ) (ht : Tracks σ) (hd : Distinct σ) {n : Nat} {f : Frame} (hf : σ.frames[n]? = some f) :
    ∃ a, a ∈ σ.asked ∧ a.cons = f.cons ∧ a.id = f.id ∧ a.cb = .frame n ∧ Track σ a := by
  obtain ⟨a, ha, e1, e2, e3⟩ := hk.back n f hf
  refine ⟨a, ha, e1, e2, e3, ht hd a ha ?_⟩
  rw [e1, e2]; exact frame_not_threw hi hk hd hf

/-- The frame of the lambda that is running. -/
theorem running_frame {σ : St} (hi : Hist σ) (hk : Calls σ) (hd : Distinct σ) {c : Nat} {id : Str} {n : Nat} {t : Tree} {st : Stage}
    (h : σ.cur = .answering c id (.frame n) t st) : ∃ f, σ.frames[n]? = some f ∧ f.cons = c ∧ f.id = id ∧
      ∀ (m : Nat) (g : Frame), σ.frames[m]? = some g → m ≠ n → ¬(c = g.cons ∧ id = g.id) := by
  obtain ⟨a, ha, e1, e2, e3⟩ := (hi.ansEv _ _ _ _ (hi.curAns _ _ _ _ _ h).1).1
  obtain ⟨f, hf, g1, g2⟩ := hk.fwd a ha n e3
  refine ⟨f, hf, by rw [g1, e1], by rw [g2, e2], ?_⟩
  rintro m g hg hne ⟨rfl, rfl⟩
  have := distinct_asked hd (hk.back m g hg) ⟨a, ha, e1, e2, e3⟩
  cases this; exact hne rfl

theorem running_answers {σ : St} (hi : Hist σ) (hk : Calls σ) (ht : Tracks σ) (hd : Distinct σ) {c : Nat} {id : Str} {n : Nat} {t : Tree} {st : Stage}
    (h : σ.cur = .answering c id (.frame n) t st) : answers c id σ.evs = [.answered c id (.frame n) t] := by
  obtain ⟨f, hf, rfl, rfl, _⟩ := running_frame hi hk hd h
  obtain ⟨a, ha, e1, e2, e3, x, hx, hT⟩ := frame_track hi hk ht hd hf
  have hev : Ev.answered f.cons f.id (.frame n) t ∈ answers f.cons f.id σ.evs := mem_answers.2 ⟨(hi.curAns _ _ _ _ _ h).1, _, _, rfl⟩
  rw [e1, e2, e3] at hT
  rcases hT with ⟨_, g2, _⟩ | ⟨d, rest, _, g2, _⟩
  · rw [g2] at hev; cases hev
  · rw [g2] at hev ⊢; rw [List.mem_singleton] at hev; rw [hev]

theorem Content.keep {σ σ' : St} (h : Content σ) (m : Mono σ σ') (he : σ'.evs = σ.evs) (hc : σ'.cur = σ.cur)
    (hf : ∀ (n : Nat) (f' : Frame), σ'.frames[n]? = some f' → ∃ f, σ.frames[n]? = some f ∧ f'.cons = f.cons ∧ f'.id = f.id ∧
      f'.response = f.response ∧ f'.waiting = f.waiting) : Content σ' := by
  intro hd n f' hf'
  obtain ⟨f, e0, e1, e2, e3, e4⟩ := hf n f' hf'
  obtain ⟨g1, g2⟩ := stored_congr (c := f.cons) (id := f.id) (σ := σ) (σ' := σ') (by rw [he]) (by rw [hc])
  rw [e1, e2, e3, e4, g1, g2]
  exact h (hd.old m) n f e0

theorem frame_set_same {l : List Frame} {n : Nat} {f g : Frame} (hf : l[n]? = some f) (h1 : g.cons = f.cons) (h2 : g.id = f.id)
    (h3 : g.response = f.response) (h4 : g.waiting = f.waiting) (m : Nat) (f' : Frame) (h : (l.set n g)[m]? = some f') :
    ∃ f, l[m]? = some f ∧ f'.cons = f.cons ∧ f'.id = f.id ∧ f'.response = f.response ∧ f'.waiting = f.waiting := by
  rcases set_inv h with ⟨rfl, rfl⟩ | ⟨_, hm⟩
  · exact ⟨f, hf, h1, h2, h3, h4⟩
  · exact ⟨f', hm, rfl, rfl, rfl, rfl⟩

/-- What line 58 leaves behind, by stage. -/
def storedAt (t : Tree) : Stage → Option Tree
  | .test => none
  | .store => none
  | _ => some t

/-- What line 59 leaves behind, by stage. -/
def toldAt : Stage → Bool
  | .flag => false
  | .test => false
  | .store => false
  | _ => true

/-- The lambda moves on: only the frame it belongs to is concerned. -/
theorem Content.lambda {σ σ' : St} (h : Content σ) (hi : Hist σ) (hk : Calls σ) (ht : Tracks σ) (m : Mono σ σ')
    {c : Nat} {id : Str} {n : Nat} {t : Tree} {st st' : Stage} {f g : Frame}
    (hc : σ.cur = .answering c id (.frame n) t st) (hc' : σ'.cur = .answering c id (.frame n) t st')
    (hf : σ.frames[n]? = some f) (he : σ'.evs = σ.evs) (hfr : σ'.frames = σ.frames.set n g) (h1 : g.cons = f.cons) (h2 : g.id = f.id)
    (hg : Distinct σ → f.response = (storedAt t st).getD .empty →
       f.waiting = !toldAt st →
       g.response = (storedAt t st').getD .empty ∧
       g.waiting = !toldAt st') : Content σ' := by
  intro hd' p f' hf'
  have hd := hd'.old m
  obtain ⟨f0, hf0, ec, ei, hoth⟩ := running_frame hi hk hd hc
  rw [hf] at hf0; cases hf0
  rw [hfr] at hf'
  rcases set_inv hf' with ⟨rfl, rfl⟩ | ⟨hne, hp⟩
  · have hA := running_answers hi hk ht hd hc
    have hA' : answers c id σ'.evs = [.answered c id (.frame p) t] := by rw [he, hA]
    have hS : stageOf c id σ.cur = some st := by rw [hc]; simp [stageOf]
    have hS' : stageOf c id σ'.cur = some st' := by rw [hc']; simp [stageOf]
    have e1 : ∀ τ s, answers c id τ.evs = [.answered c id (.frame p) t] → stageOf c id τ.cur = some s →
        stored τ c id = storedAt t s ∧
        signalled τ c id = toldAt s := by
      intro τ s h1 h2
      unfold signalled stored
      rw [h1, h2]
      cases s <;> simp [Ev.content, storedAt, toldAt]
    have := h hd p f hf
    rw [ec, ei, (e1 σ st hA hS).1, (e1 σ st hA hS).2] at this
    rw [h1, h2, ec, ei, (e1 σ' st' hA' hS').1, (e1 σ' st' hA' hS').2]
    exact hg hd this.1 this.2
  · have hn := hoth p f' hp hne
    obtain ⟨g1, g2⟩ := stored_congr (c := f'.cons) (id := f'.id) (σ := σ) (σ' := σ') (by rw [he])
      (by rw [hc, hc']; simp only [stageOf]; rw [if_neg hn, if_neg hn])
    rw [g1, g2]
    exact h hd p f' hp

theorem content_deliver {σ : St} {b : Bus.St} {d : Delivery} (hi : Hist σ) (hk : Calls σ) (ht : Tracks σ) (h : Content σ)
    (m : Mono σ (dispatch { σ with bus := b } d)) (h3 : inCb σ.bus.phase = false) :
    Content (dispatch { σ with bus := b } d) := by
  intro hd' n f hf
  have hd := hd'.old m
  obtain ⟨e1, e2, e3, e4, e5, e6, e7, e8, e9⟩ := dispatch_same { σ with bus := b } d
  rw [e5] at hf
  have hidle := hi.idle.2 h3
  have hbase := h hd n f hf
  by_cases hm : ∃ cb t st, (dispatch { σ with bus := b } d).cur = .answering f.cons f.id cb t st
  · obtain ⟨cb, t, st, hcur⟩ := hm
    obtain ⟨a, ha, g1, g2, g3, x, hx, hT⟩ := frame_track hi hk ht hd hf
    obtain ⟨y, j1, j2, j3, j4, j5, j6⟩ := dispatch_answering hcur
    have hfind : ∃ cb, x.opened.find a.id = some cb := by
      rw [g1] at hx
      have j2' : σ.cons[f.cons]? = some y := j2
      rw [hx] at j2'; cases j2'
      exact ⟨cb, by rw [g2]; exact j4⟩
    rcases hT with ⟨k1, k2, k3⟩ | ⟨d0, rest, k1, k2, ⟨st', k3, _⟩ | ⟨_, k4⟩⟩
    · have hcb : cb = .frame n := by
        rw [g1] at hx
        have j2' : σ.cons[f.cons]? = some y := j2
        rw [hx] at j2'; cases j2'
        rw [g2, g3] at k3
        rw [k3] at j4; cases j4; rfl
      have hst : st = .test := by rw [j6.2, hcb]; rfl
      subst hst
      have hs0 : stored σ f.cons f.id = none := by unfold stored; rw [← g1, ← g2, k2]; rfl
      have hg0 : signalled σ f.cons f.id = false := by
        unfold signalled; rw [hs0, hidle]; simp [stageOf]
      have hS : stageOf f.cons f.id (dispatch { σ with bus := b } d).cur = some .test := by rw [hcur]; simp [stageOf]
      have hs1 : stored (dispatch { σ with bus := b } d) f.cons f.id = none := by
        unfold stored; rw [hS]; cases (answers f.cons f.id (dispatch { σ with bus := b } d).evs).head? <;> rfl
      have hg1 : signalled (dispatch { σ with bus := b } d) f.cons f.id = false := by
        unfold signalled; rw [hs1, hS]; rfl
      rw [hs0, hg0] at hbase
      rw [hs1, hg1]; exact hbase
    · rw [hidle] at k3; cases k3
    · rw [k4] at hfind; obtain ⟨_, hfind⟩ := hfind; cases hfind
  · have hS : stageOf f.cons f.id (dispatch { σ with bus := b } d).cur = none := by
      cases hc : (dispatch { σ with bus := b } d).cur <;> try rfl
      simp only [stageOf]; rw [if_neg]
      rintro ⟨rfl, rfl⟩; exact hm ⟨_, _, _, hc⟩
    have hA : answers f.cons f.id (dispatch { σ with bus := b } d).evs = answers f.cons f.id σ.evs := by
      rcases dispatch_evs { σ with bus := b } d with e | ⟨c, y, id, cb, st, hf', _, hid, _, e, ecur⟩ | ⟨_, _, _, _, _, _, _, _, e, _⟩
      · rw [e]
      · rw [e, answers_append, answers_other, List.append_nil]
        rintro ⟨rfl, rfl⟩; exact hm ⟨_, _, _, ecur.1⟩
      · rw [e, answers_append, answers_requested, List.append_nil]
    obtain ⟨g1, g2⟩ := stored_congr (c := f.cons) (id := f.id) (σ := σ) (σ' := dispatch { σ with bus := b } d) hA
      (by rw [hS, hidle]; rfl)
    rw [g1, g2]; exact hbase

theorem content_end {σ : St} {b : Bus.St} {c : Bus.Choice} (h : Content σ) (m : Mono σ (endCb σ b c)) (h6 : mayEnd σ.cur c = true) :
    Content (endCb σ b c) := by
  obtain ⟨e1, e2, e3, e4, e5, e6, e7, e8, e9⟩ := endCb_same σ b c
  intro hd n f hf
  rw [e4] at hf
  have hover : ∀ s, stageOf f.cons f.id σ.cur = some s → s = .over := by
    intro s hs
    cases hc : σ.cur with
    | answering c' id' cb t st =>
      rw [hc] at hs h6
      simp only [stageOf] at hs
      split at hs <;> cases hs
      cases cb <;> cases s <;> first | rfl | simp [mayEnd] at h6
    | _ => rw [hc] at hs; cases hs
  have key : stored (endCb σ b c) f.cons f.id = stored σ f.cons f.id ∧ signalled (endCb σ b c) f.cons f.id = signalled σ f.cons f.id := by
    have hs : stored (endCb σ b c) f.cons f.id = stored σ f.cons f.id := by
      unfold stored
      rw [e5, e7]
      cases hs : stageOf f.cons f.id σ.cur with
      | none => rfl
      | some s => rw [hover s hs]; rfl
    refine ⟨hs, ?_⟩
    unfold signalled
    rw [hs, e5]
    cases hs : stageOf f.cons f.id σ.cur with
    | none => rfl
    | some s => rw [hover s hs]; rfl
  rw [key.1, key.2]
  exact h (hd.old m) n f hf

theorem content_step {σ σ' : St} {a : Act} (hi : Hist σ) (hk : Calls σ) (ht : Tracks σ) (h : Content σ)
    (hs : step σ a = .to σ') : Content σ' := by
  have m := mono_step hs
  have hid : ∀ (n : Nat) (f' : Frame), σ.frames[n]? = some f' → ∃ f, σ.frames[n]? = some f ∧ f'.cons = f.cons ∧ f'.id = f.id ∧
      f'.response = f.response ∧ f'.waiting = f.waiting := fun n f h => ⟨f, h, rfl, rfl, rfl, rfl⟩
  cases step_eff hs with
  | client a b h1 h2 => exact h.keep m rfl rfl hid
  | endCb c b h1 h2 h3 h4 h5 h6 => exact content_end h m h6
  | quiet c b h1 h2 h3 h4 h5 => exact h.keep m rfl rfl hid
  | deliver c b d h1 h2 h3 h4 h5 h6 => exact content_deliver hi hk ht h m h3
  | test c id n t f h1 h2 h3 =>
    refine h.lambda hi hk ht m h1 rfl h2 rfl (g := f) ?_ rfl rfl ?_
    · simp only
      obtain ⟨hl, e⟩ := List.getElem?_eq_some_iff.1 h2
      rw [← e, List.set_getElem_self]
    · intro _ g1 g2; rw [g2]; exact ⟨g1, rfl⟩
  | store c id n t f h1 h2 h3 =>
    refine h.lambda hi hk ht m h1 rfl h2 rfl rfl rfl rfl ?_
    intro _ g1 g2; exact ⟨rfl, g2⟩
  | flag c id n t f h1 h2 h3 =>
    refine h.lambda hi hk ht m h1 rfl h2 rfl rfl rfl rfl ?_
    intro _ g1 g2; exact ⟨g1, rfl⟩
  | wake c id n t f h1 h2 h3 =>
    refine h.lambda hi hk ht m h1 rfl h2 rfl rfl rfl rfl ?_
    intro _ g1 g2; exact ⟨g1, g2⟩
  | consumer q s topic b h1 h2 h3 h4 h5 h6 h7 h8 h9 h10 h11 => exact h.keep m rfl rfl hid
  | provider s q topic cb b h1 h2 h3 h4 h5 h6 h7 h8 h9 h10 h11 => exact h.keep m rfl rfl hid
  | reset p => exact h.keep m rfl rfl hid
  | request c id k t x hx => exact h.keep m rfl rfl hid
  | begin c id t onBus x hx ho =>
    intro hd n f hf
    rcases getElem?_append_one hf with hf | ⟨rfl, rfl⟩
    · exact h (hd.old m) n f hf
    · have hnew : ∀ b ∈ σ.asked, ¬(b.cons = c ∧ b.id = id) := by
        rintro b hb' ⟨h1, h2⟩
        unfold Distinct at hd
        simp only [register] at hd
        rw [List.map_append, List.nodup_append] at hd
        exact hd.2.2 _ (List.mem_map.2 ⟨b, hb', rfl⟩) (c, id) (List.mem_singleton.2 rfl) (by rw [h1, h2])
      have hA := answers_nil hi hnew
      have hs : ∀ τ : St, τ.evs = σ.evs → stored τ c id = none := by intro τ e; unfold stored; rw [e, hA]; rfl
      have hg : ∀ τ : St, τ.evs = σ.evs → signalled τ c id = false := by
        intro τ e; unfold signalled; rw [hs _ e]; split <;> rfl
      refine ⟨?_, ?_⟩
      · refine Eq.trans ?_ (congrArg (fun o => Option.getD o Tree.empty) (hs _ ?_)).symm <;> rfl
      · refine Eq.trans ?_ (congrArg (fun o => !o) (hg _ ?_)).symm <;> rfl
  | send i p x b h1 h2 h3 =>
    refine h.keep m rfl rfl ?_
    intro n f' hf'
    simp only at hf'
    cases hp : p.frame with
    | none => rw [hp] at hf'; exact ⟨f', hf', rfl, rfl, rfl, rfl⟩
    | some k =>
      rw [hp] at hf'
      simp only at hf'
      rw [List.getElem?_modify] at hf'
      cases hg : σ.frames[n]? with
      | none => rw [hg] at hf'; simp at hf'
      | some g =>
        rw [hg] at hf'
        refine ⟨g, rfl, ?_⟩
        by_cases e : k = n
        · simp [e] at hf'; subst hf'; exact ⟨rfl, rfl, rfl, rfl⟩
        · simp [e] at hf'; subst hf'; exact ⟨rfl, rfl, rfl, rfl⟩
  | respond p id t x b h1 h2 => exact h.keep m rfl rfl hid
  | look n f h1 h2 h3 => exact h.keep m rfl rfl (frame_set_same h1 rfl rfl rfl rfl)
  | leave n f h1 h2 h3 => exact h.keep m rfl rfl (frame_set_same h1 rfl rfl rfl rfl)
  | sleep n f h1 h2 => exact h.keep m rfl rfl (frame_set_same h1 rfl rfl rfl rfl)
  | spurious n f h1 h2 => exact h.keep m rfl rfl (frame_set_same h1 rfl rfl rfl rfl)
  | timeout n f h1 h2 => exact h.keep m rfl rfl (frame_set_same h1 rfl rfl rfl rfl)

theorem Reachable.content {σ : St} (h : Reachable σ) : Content σ := by
  refine reachable_induct (P := Content) ?_ (fun σ a σ' hr hp hs => content_step hr.hist hr.calls hr.tracks hp hs) h
  intro name b hb _ n f hf
  simp at hf

end LP.Action
