import Verif.Lemma.ActionHist2
/-!
# The life of one request
-/
namespace LP.Action
open LP.Bus (Delivery)

theorem Distinct.old {σ σ' : St} (m : Mono σ σ') (h : Distinct σ') : Distinct σ := by
  unfold Distinct at *
  exact List.Nodup.sublist (m.asked.sublist.map _) h

theorem distinct_eq {σ : St} (h : Distinct σ) {a b : Asked} (ha : a ∈ σ.asked) (hb : b ∈ σ.asked) (h1 : a.cons = b.cons)
    (h2 : a.id = b.id) : a = b := by
  unfold Distinct at h
  revert h ha hb
  generalize σ.asked = l
  intro h ha hb
  induction l with
  | nil => cases ha
  | cons y l ih =>
    simp only [List.map_cons, List.nodup_cons, List.mem_map, not_exists, not_and] at h
    rcases List.mem_cons.1 ha with e | ha'
    · rcases List.mem_cons.1 hb with e' | hb'
      · rw [e, e']
      · exact absurd (by rw [← e, h1, h2]) (h.1 b hb')
    · rcases List.mem_cons.1 hb with e' | hb'
      · exact absurd (by rw [← e', h1, h2]) (h.1 a ha')
      · exact ih h.2 ha' hb'

theorem answers_append (c : Nat) (id : Str) (l m : List Ev) : answers c id (l ++ m) = answers c id l ++ answers c id m := by
  simp [answers]

theorem answers_self (c : Nat) (id : Str) (cb : Cb) (t : Tree) : answers c id [.answered c id cb t] = [.answered c id cb t] := by
  simp [answers]

theorem answers_other {c c' : Nat} {id id' : Str} {cb : Cb} {t : Tree} (h : ¬(c' = c ∧ id' = id)) :
    answers c id [.answered c' id' cb t] = [] := by
  simp only [answers, List.filter_cons, List.filter_nil]
  rw [if_neg]
  simpa using h

theorem answers_requested (c : Nat) (id : Str) (p k : Nat) (id' : Str) (t : Tree) : answers c id [.requested p k id' t] = [] := by
  simp [answers]

theorem mem_answers {c : Nat} {id : Str} {evs : List Ev} {e : Ev} : e ∈ answers c id evs ↔ e ∈ evs ∧ ∃ cb t, e = .answered c id cb t := by
  unfold answers
  rw [List.mem_filter]
  refine and_congr_right (fun _ => ?_)
  cases e with
  | answered c' id' cb t =>
    simp only [Bool.and_eq_true, beq_iff_eq, Ev.answered.injEq]
    constructor
    · rintro ⟨rfl, rfl⟩; exact ⟨cb, t, rfl, rfl, rfl, rfl⟩
    · rintro ⟨_, _, rfl, rfl, _⟩; exact ⟨rfl, rfl⟩
  | requested => simp

theorem answers_nil {σ : St} (h : Hist σ) {c : Nat} {id : Str} (hn : ∀ a ∈ σ.asked, ¬(a.cons = c ∧ a.id = id)) :
    answers c id σ.evs = [] := by
  rw [List.eq_nil_iff_forall_not_mem]
  intro e he
  obtain ⟨h1, cb, t, rfl⟩ := mem_answers.1 he
  obtain ⟨a, ha, e1, e2, _⟩ := (h.ansEv _ _ _ _ h1).1
  exact hn a ha ⟨e1, e2⟩

theorem responses_append (s : Nat) (id : Str) (l m : List Delivery) : responses s id (l ++ m) = responses s id l ++ responses s id m := by
  simp [responses]

/-- The fate of request `a`: as long as no response arrived its callback is registered and was not invoked; the first
response invokes it; when the callback has returned it is no longer registered. -/
def Track (σ : St) (a : Asked) : Prop :=
  ∃ x, σ.cons[a.cons]? = some x ∧
    ((responses x.sub a.id (σ.bus.log.drop a.seen) = [] ∧ answers a.cons a.id σ.evs = [] ∧ x.opened.find a.id = some a.cb) ∨
     ∃ d rest, responses x.sub a.id (σ.bus.log.drop a.seen) = d :: rest ∧
       answers a.cons a.id σ.evs = [.answered a.cons a.id a.cb (responseOf d.msg.dg)] ∧
       ((∃ st, σ.cur = .answering a.cons a.id a.cb (responseOf d.msg.dg) st ∧ rest = []) ∨
        (stageOf a.cons a.id σ.cur = none ∧ x.opened.find a.id = none)))

theorem Track.keep {σ σ' : St} {a : Asked} (h : Track σ a) (hl : σ'.bus.log = σ.bus.log) (hc : σ'.cur = σ.cur) (he : σ'.evs = σ.evs)
    (hx : ∀ x, σ.cons[a.cons]? = some x → ∃ x', σ'.cons[a.cons]? = some x' ∧ x'.sub = x.sub ∧ x'.opened.find a.id = x.opened.find a.id) :
    Track σ' a := by
  obtain ⟨x, h1, h2⟩ := h
  obtain ⟨x', e1, e2, e3⟩ := hx x h1
  refine ⟨x', e1, ?_⟩
  rw [hl, hc, he, e2, e3]; exact h2

theorem Track.keep' {σ σ' : St} {a : Asked} (h : Track σ a) (hl : σ'.bus.log = σ.bus.log) (hc : σ'.cur = σ.cur) (he : σ'.evs = σ.evs)
    (hx : σ'.cons = σ.cons) : Track σ' a :=
  h.keep hl hc he (fun x h => ⟨x, hx ▸ h, rfl, rfl⟩)

theorem stageOf_idle (c : Nat) (id : Str) : stageOf c id .idle = none := rfl

/-- The lambda moves on. -/
theorem Track.lambda {σ σ' : St} {a : Asked} (h : Track σ a) {c : Nat} {id : Str} {cb : Cb} {t : Tree} {st st' : Stage}
    (hc : σ.cur = .answering c id cb t st) (hc' : σ'.cur = .answering c id cb t st')
    (hl : σ'.bus.log = σ.bus.log) (he : σ'.evs = σ.evs) (hx : σ'.cons = σ.cons) : Track σ' a := by
  obtain ⟨x, h1, h2⟩ := h
  refine ⟨x, hx ▸ h1, ?_⟩
  rw [hl, hc', he]
  rw [hc] at h2
  rcases h2 with h2 | ⟨d, rest, e1, e2, ⟨st2, e3, e4⟩ | ⟨e3, e4⟩⟩
  · exact .inl h2
  · cases e3; exact .inr ⟨d, rest, e1, e2, .inl ⟨st', rfl, e4⟩⟩
  · refine .inr ⟨d, rest, e1, e2, .inr ⟨?_, e4⟩⟩
    simp only [stageOf] at e3 ⊢
    split at e3
    · cases e3
    · rename_i hn; rw [if_neg hn]

theorem track_deliver {σ : St} {b : Bus.St} {d : Delivery} {a : Asked} (ho : Own σ) (hi : Hist σ) (ha : a ∈ σ.asked) (h : Track σ a)
    (h3 : inCb σ.bus.phase = false) (h5 : b.log = σ.bus.log ++ [d]) (h6 : (σ.bus.w.sub d.sub).cb = some d.cb) :
    Track (dispatch { σ with bus := b } d) a := by
  obtain ⟨x, h1, h2⟩ := h
  obtain ⟨e1, e2, e3, e4, e5, e6, e7, e8, e9⟩ := dispatch_same { σ with bus := b } d
  have hidle := hi.idle.2 h3
  have hlog : (dispatch { σ with bus := b } d).bus.log.drop a.seen = σ.bus.log.drop a.seen ++ [d] := by
    rw [e1]; simp only; rw [h5, List.drop_append_of_le_length (hi.seen a ha).1]
  refine ⟨x, by rw [e2]; exact h1, ?_⟩
  rw [hlog, responses_append]
  by_cases hd : d.sub = x.sub ∧ idOf d.msg.dg = some a.id
  · have hD : responses x.sub a.id [d] = [d] := by simp [responses, hd.1, hd.2]
    have hf : fnOf d.cb = .consumer a.cons := (ho.consumer h6).2 ⟨x, h1, hd.1⟩
    rw [hD]
    rcases h2 with ⟨g1, g2, g3⟩ | ⟨d0, rest, g1, g2, ⟨st, g3, _⟩ | ⟨_, g4⟩⟩
    · refine .inr ⟨d, [], by rw [g1]; rfl, ?_, .inl ⟨firstStage a.cb, ?_, rfl⟩⟩
      · simp only [dispatch, hf, hd.2, h1, g3]
        rw [answers_append, g2, answers_self]; rfl
      · simp only [dispatch, hf, hd.2, h1, g3]
    · rw [hidle] at g3; cases g3
    · refine .inr ⟨d0, rest ++ [d], by rw [g1]; rfl, ?_, .inr ⟨?_, g4⟩⟩
      · simp only [dispatch, hf, hd.2, h1, g4]; exact g2
      · simp only [dispatch, hf, hd.2, h1, g4]; rfl
  · have hD : responses x.sub a.id [d] = [] := by simp [responses]; intro e1 e2; exact hd ⟨e1, e2⟩
    have hne : ∀ c id, fnOf d.cb = .consumer c → idOf d.msg.dg = some id → ¬(c = a.cons ∧ id = a.id) := by
      rintro c id hf hid ⟨rfl, rfl⟩
      obtain ⟨y, hy, e⟩ := (ho.consumer h6).1 hf
      rw [h1] at hy; cases hy
      exact hd ⟨e, hid⟩
    have hA : answers a.cons a.id (dispatch { σ with bus := b } d).evs = answers a.cons a.id σ.evs := by
      rcases dispatch_evs { σ with bus := b } d with e | ⟨c, y, id, cb, st, hf, _, hid, _, e, _⟩ | ⟨_, _, _, _, _, _, _, _, e, _⟩
      · rw [e]
      · rw [e, answers_append, answers_other (hne c id hf hid), List.append_nil]
      · rw [e, answers_append, answers_requested, List.append_nil]
    have hS : stageOf a.cons a.id (dispatch { σ with bus := b } d).cur = none := by
      cases hc : (dispatch { σ with bus := b } d).cur <;> try rfl
      rename_i c id cb t st
      obtain ⟨y, hf, _, hid, _⟩ := dispatch_answering hc
      simp only [stageOf]; rw [if_neg (hne c id hf hid)]
    rw [hD, List.append_nil, hA]
    rcases h2 with g | ⟨d0, rest, g1, g2, ⟨st, g3, _⟩ | ⟨_, g4⟩⟩
    · exact .inl g
    · rw [hidle] at g3; cases g3
    · exact .inr ⟨d0, rest, g1, g2, .inr ⟨hS, g4⟩⟩

theorem track_end {σ : St} {b : Bus.St} {c : Bus.Choice} {a : Asked} (ho : Own σ) (hi : Hist σ) (h : Track σ a)
    (h5 : b.log = σ.bus.log) (ht : (a.cons, a.id) ∉ (endCb σ b c).threw) (h6 : mayEnd σ.cur c = true) :
    Track (endCb σ b c) a := by
  obtain ⟨x, h1, h2⟩ := h
  obtain ⟨e1, e2, e3, e4, e5, e6, e7, e8, e9⟩ := endCb_same σ b c
  have hlog : (endCb σ b c).bus.log = σ.bus.log := by rw [e1, h5]
  by_cases hcur : ∃ cb t st, σ.cur = .answering a.cons a.id cb t st
  · obtain ⟨cb, t, st, hcur⟩ := hcur
    -- its own callback ends
    have hgo : c = .go := by
      cases c with
      | go => rfl
      | timeout => rw [hcur] at h6; cases cb <;> cases st <;> simp [mayEnd] at h6
      | throwing =>
        refine absurd ?_ ht
        simp only [endCb, hcur]
        exact List.mem_append_right _ (List.mem_singleton.2 rfl)
    subst hgo
    have hx : (endCb σ b .go).cons[a.cons]? = some { x with opened := x.opened.erase a.id } := by
      simp only [endCb, hcur, closeRequest]
      rw [modify_getElem? h1, if_pos rfl]
    refine ⟨_, hx, ?_⟩
    rw [hlog, e7, e5]
    have hev : Ev.answered a.cons a.id cb t ∈ answers a.cons a.id σ.evs := mem_answers.2 ⟨(hi.curAns _ _ _ _ _ hcur).1, cb, t, rfl⟩
    rcases h2 with ⟨g1, g2, g3⟩ | ⟨d, rest, g1, g2, _⟩
    · rw [g2] at hev; cases hev
    · refine .inr ⟨d, rest, g1, g2, .inr ⟨rfl, ?_⟩⟩
      simp only [Dict.find_erase (ho.cons _ _ h1).sorted, if_pos]
  · obtain ⟨x', hx', e⟩ : ∃ x', (endCb σ b c).cons[a.cons]? = some x' ∧ x'.sub = x.sub ∧ x'.opened.find a.id = x.opened.find a.id := by
      obtain ⟨x', hx', _, e, _⟩ := endCb_cons' (b := b) (c := c) h1
      refine ⟨x', hx', e, ?_⟩
      obtain ⟨y, hy, rfl | ⟨id, cb, t, st, hc, _, rfl⟩⟩ := endCb_cons hx'
      · rw [h1] at hy; cases hy; rfl
      · rw [h1] at hy; cases hy
        simp only [Dict.find_erase (ho.cons _ _ h1).sorted]
        rw [if_neg]
        rintro rfl; exact hcur ⟨_, _, _, hc⟩
    refine ⟨x', hx', ?_⟩
    rw [hlog, e7, e5, e.1, e.2]
    rcases h2 with g | ⟨d, rest, g1, g2, ⟨st, g3, _⟩ | ⟨_, g4⟩⟩
    · exact .inl g
    · exact absurd ⟨_, _, _, g3⟩ hcur
    · exact .inr ⟨d, rest, g1, g2, .inr ⟨rfl, g4⟩⟩

theorem track_register {σ σ' : St} (hi : Hist σ) (hd : Distinct σ') {c : Nat} {x : Cons} {id : Str} {cb : Cb} {t : Tree}
    (hx : σ.cons[c]? = some x) (hb : σ'.bus = σ.bus) (hcur : σ'.cur = σ.cur)
    (hc : σ'.cons = σ.cons.set c { x with opened := x.opened.insert id cb }) (he : σ'.evs = σ.evs)
    (ha : σ'.asked = σ.asked ++ [⟨c, id, cb, t, σ.bus.log.length⟩]) {a : Asked} (hm : a ∈ σ'.asked)
    (h : a ∈ σ.asked → Track σ a) : Track σ' a := by
  have hnew : ∀ b ∈ σ.asked, ¬(b.cons = c ∧ b.id = id) := by
    rintro b hb' ⟨h1, h2⟩
    unfold Distinct at hd
    rw [ha, List.map_append, List.nodup_append] at hd
    exact hd.2.2 _ (List.mem_map.2 ⟨b, hb', rfl⟩) (c, id) (List.mem_singleton.2 rfl) (by rw [h1, h2])
  rw [ha] at hm
  rcases List.mem_append.1 hm with hm | hm
  · refine (h hm).keep (by rw [hb]) hcur he ?_
    intro y hy
    refine ⟨_, by rw [hc]; exact set_getElem? hy, ?_⟩
    split
    · rename_i e
      rw [e, hx] at hy; cases hy
      refine ⟨rfl, ?_⟩
      simp only [Dict.find_insert]
      rw [if_neg]
      intro e'; exact hnew a hm ⟨e, e'.symm⟩
    · exact ⟨rfl, rfl⟩
  · simp only [List.mem_singleton] at hm
    subst hm
    refine ⟨{ x with opened := x.opened.insert id cb }, by rw [hc]; simp only; rw [set_getElem? hx, if_pos rfl], .inl ⟨?_, ?_, ?_⟩⟩
    · rw [hb]; simp [responses]
    · rw [he]; exact answers_nil hi hnew
    · simp

/-- Every request follows its track. -/
def Tracks (σ : St) : Prop := Distinct σ → ∀ a ∈ σ.asked, (a.cons, a.id) ∉ σ.threw → Track σ a

theorem tracks_step {σ σ' : St} {a : Act} (ho : Own σ) (hi : Hist σ) (h : Tracks σ) (hs : step σ a = .to σ') : Tracks σ' := by
  have m := mono_step hs
  intro hd r hr ht
  have hold : r ∈ σ.asked → Track σ r := fun hr => h (hd.old m) r hr (fun h => ht (m.threw.subset h))
  cases step_eff hs with
  | client a b h1 h2 => exact (hold hr).keep' (client_cases (client_not_run h1) h2).2.2.1 rfl rfl rfl
  | endCb c b h1 h2 h3 h4 h5 h6 =>
    have hr' : r ∈ σ.asked := by rwa [(endCb_same σ b c).2.2.2.2.2.2.2.1] at hr
    exact track_end ho hi (hold hr') h5 ht h6
  | quiet c b h1 h2 h3 h4 h5 => exact (hold hr).keep' h5 rfl rfl rfl
  | deliver c b d h1 h2 h3 h4 h5 h6 =>
    have hr' : r ∈ σ.asked := by rwa [(dispatch_same { σ with bus := b } d).2.2.2.2.2.2.1] at hr
    exact track_deliver ho hi hr' (hold hr') h3 h5 h6
  | test c id n t f h1 h2 h3 => exact (hold hr).lambda h1 rfl rfl rfl rfl
  | store c id n t f h1 h2 h3 => exact (hold hr).lambda h1 rfl rfl rfl rfl
  | flag c id n t f h1 h2 h3 => exact (hold hr).lambda h1 rfl rfl rfl rfl
  | wake c id n t f h1 h2 h3 => exact (hold hr).lambda h1 rfl rfl rfl rfl
  | consumer q s topic b h1 h2 h3 h4 h5 h6 h7 h8 h9 h10 h11 =>
    exact (hold hr).keep (setCb_log h11) rfl rfl (fun x hx => ⟨x, getElem?_append_old hx, rfl, rfl⟩)
  | provider s q topic cb b h1 h2 h3 h4 h5 h6 h7 h8 h9 h10 h11 => exact (hold hr).keep' (setCb_log h11) rfl rfl rfl
  | reset p => exact (hold hr).keep' rfl rfl rfl rfl
  | request c id k t x hx => exact track_register hi hd hx rfl rfl rfl rfl rfl hr hold
  | begin c id t onBus x hx ho => exact track_register hi hd hx rfl rfl rfl rfl rfl hr hold
  | send i p x b h1 h2 h3 => exact (hold hr).keep' (pubPublish_log h3).1 rfl rfl rfl
  | respond p id t x b h1 h2 => exact (hold hr).keep' (pubPublish_log h2).1 rfl rfl rfl
  | look n f h1 h2 h3 => exact (hold hr).keep' rfl rfl rfl rfl
  | leave n f h1 h2 h3 => exact (hold hr).keep' rfl rfl rfl rfl
  | sleep n f h1 h2 => exact (hold hr).keep' rfl rfl rfl rfl
  | spurious n f h1 h2 => exact (hold hr).keep' rfl rfl rfl rfl
  | timeout n f h1 h2 => exact (hold hr).keep' rfl rfl rfl rfl

theorem Reachable.tracks {σ : St} (h : Reachable σ) : Tracks σ := by
  refine reachable_induct (P := Tracks) ?_ (fun σ a σ' hr hp hs => tracks_step hr.own hr.hist hp hs) h
  intro name b hb _ a ha
  simp at ha

end LP.Action
