import Verif.Lemma.ActionTrack
import Verif.Spec.OpenRequests
/-!
# Requests are registered until a call of their callback has returned
-/
namespace LP.Action
open LP.Bus (Delivery BMsg)

/-- Request `a` is registered exactly as long as no call of its callback has returned. -/
def Counted (σ : St) (a : Asked) : Prop :=
  ∃ x, σ.cons[a.cons]? = some x ∧
    ((begun a.cons a.id σ = unfinished a.cons a.id σ ∧ x.opened.find a.id = some a.cb) ∨
     (begun a.cons a.id σ = unfinished a.cons a.id σ + 1 ∧ stageOf a.cons a.id σ.cur = none ∧ x.opened.find a.id = none))

theorem Counted.keep {σ σ' : St} {a : Asked} (h : Counted σ a) (hc : stageOf a.cons a.id σ'.cur = none ↔ stageOf a.cons a.id σ.cur = none)
    (he : σ'.evs = σ.evs) (ht : σ'.threw = σ.threw)
    (hx : ∀ x, σ.cons[a.cons]? = some x → ∃ x', σ'.cons[a.cons]? = some x' ∧ x'.opened.find a.id = x.opened.find a.id) : Counted σ' a := by
  obtain ⟨x, h1, h2⟩ := h
  obtain ⟨x', h1', e⟩ := hx x h1
  refine ⟨x', h1', ?_⟩
  have hu : unfinished a.cons a.id σ' = unfinished a.cons a.id σ := by
    unfold unfinished; rw [ht]; simp only [hc]
  have hb : begun a.cons a.id σ' = begun a.cons a.id σ := by unfold begun; rw [he]
  rw [hu, hb, e, hc]
  exact h2

theorem Counted.same {σ σ' : St} {a : Asked} (h : Counted σ a) (hc : σ'.cur = σ.cur) (he : σ'.evs = σ.evs) (ht : σ'.threw = σ.threw)
    (hx : σ'.cons = σ.cons) : Counted σ' a :=
  h.keep (by rw [hc]) he ht (fun x h => ⟨x, by rw [hx]; exact h, rfl⟩)

theorem Counted.stage {σ σ' : St} {a : Asked} (h : Counted σ a) {c : Nat} {id : Str} {cb : Cb} {t : Tree} {st st' : Stage}
    (h1 : σ.cur = .answering c id cb t st) (h2 : σ'.cur = .answering c id cb t st') (he : σ'.evs = σ.evs) (ht : σ'.threw = σ.threw)
    (hx : σ'.cons = σ.cons) : Counted σ' a := by
  refine h.keep ?_ he ht (fun x h => ⟨x, by rw [hx]; exact h, rfl⟩)
  rw [h1, h2]; simp only [stageOf]; split <;> simp

theorem counted_deliver {σ : St} {b : Bus.St} {d : Delivery} {a : Asked} (hi : Hist σ) (h : Counted σ a)
    (h3 : inCb σ.bus.phase = false) : Counted (dispatch { σ with bus := b } d) a := by
  obtain ⟨x, h1, h2⟩ := h
  obtain ⟨_, e2, _, _, _, _, _, _, e9⟩ := dispatch_same { σ with bus := b } d
  have hidle := hi.idle.2 h3
  have hu : unfinished a.cons a.id σ = σ.threw.count (a.cons, a.id) := by simp [unfinished, hidle, stageOf]
  rw [hu] at h2
  refine ⟨x, by rw [e2]; exact h1, ?_⟩
  have other : (dispatch { σ with bus := b } d).evs = σ.evs ∨ (∃ l, (dispatch { σ with bus := b } d).evs = σ.evs ++ l ∧ answers a.cons a.id l = []) →
      stageOf a.cons a.id (dispatch { σ with bus := b } d).cur = none →
      ((begun a.cons a.id (dispatch { σ with bus := b } d) = unfinished a.cons a.id (dispatch { σ with bus := b } d) ∧ x.opened.find a.id = some a.cb) ∨
     (begun a.cons a.id (dispatch { σ with bus := b } d) = unfinished a.cons a.id (dispatch { σ with bus := b } d) + 1 ∧
       stageOf a.cons a.id (dispatch { σ with bus := b } d).cur = none ∧ x.opened.find a.id = none)) := by
    intro he hs
    have hb : begun a.cons a.id (dispatch { σ with bus := b } d) = begun a.cons a.id σ := by
      unfold begun
      rcases he with e | ⟨l, e, hl⟩
      · rw [e]
      · rw [e, answers_append, hl, List.append_nil]
    have hu' : unfinished a.cons a.id (dispatch { σ with bus := b } d) = σ.threw.count (a.cons, a.id) := by
      unfold unfinished; rw [e9, hs]; simp
    rw [hb, hu']
    rcases h2 with ⟨g1, g2⟩ | ⟨g1, _, g2⟩
    · exact .inl ⟨g1, g2⟩
    · exact .inr ⟨g1, hs, g2⟩
  cases hc : (dispatch { σ with bus := b } d).cur with
  | answering c id cb t st =>
    obtain ⟨y, hf, hy, hid, hfind, _⟩ := dispatch_answering hc
    by_cases hsame : c = a.cons ∧ id = a.id
    · obtain ⟨rfl, rfl⟩ := hsame
      simp only at hy
      rw [h1] at hy; cases hy
      rcases h2 with ⟨g1, g2⟩ | ⟨_, _, g2⟩
      · refine .inl ⟨?_, g2⟩
        have hev : (dispatch { σ with bus := b } d).evs = σ.evs ++ [.answered a.cons a.id a.cb (responseOf d.msg.dg)] := by
          simp only [dispatch, hf, hid, h1, g2]
        unfold begun unfinished at *
        rw [hev, answers_append, answers_self, e9, hc, List.length_append, g1]
        simp [stageOf]
      · rw [hfind] at g2; cases g2
    · rw [← hc]
      refine other ?_ (by rw [hc]; simp only [stageOf]; rw [if_neg hsame])
      rcases dispatch_evs { σ with bus := b } d with e | ⟨c', y', id', cb', st', _, _, _, _, e, e', _⟩ | ⟨_, _, _, _, _, _, _, _, e, e'⟩
      · exact .inl e
      · rw [hc] at e'; cases e'
        exact .inr ⟨_, e, answers_other hsame⟩
      · exact .inr ⟨_, e, answers_requested ..⟩
  | _ =>
    rw [← hc]
    refine other ?_ (by rw [hc]; rfl)
    rcases dispatch_evs { σ with bus := b } d with e | ⟨c', y', id', cb', st', _, _, _, _, e, e', _⟩ | ⟨_, _, _, _, _, _, _, _, e, e'⟩
    · exact .inl e
    · rw [hc] at e'; cases e'
    · exact .inr ⟨_, e, answers_requested ..⟩

theorem counted_end {σ : St} {b : Bus.St} {c : Bus.Choice} {a : Asked} (ho : Own σ) (h : Counted σ a) (h6 : mayEnd σ.cur c = true) :
    Counted (endCb σ b c) a := by
  obtain ⟨x, h1, h2⟩ := h
  obtain ⟨e1, e2, e3, e4, e5, e6, e7, e8, e9⟩ := endCb_same σ b c
  have hb : begun a.cons a.id (endCb σ b c) = begun a.cons a.id σ := by unfold begun; rw [e7]
  by_cases hcur : ∃ cb t st, σ.cur = .answering a.cons a.id cb t st
  · obtain ⟨cb, t, st, hcur⟩ := hcur
    have hu : unfinished a.cons a.id σ = σ.threw.count (a.cons, a.id) + 1 := by simp [unfinished, hcur, stageOf]
    rw [hu] at h2
    rcases h2 with ⟨g1, g2⟩ | ⟨_, g, _⟩
    · cases c with
      | timeout => rw [hcur] at h6; cases cb <;> cases st <;> simp [mayEnd] at h6
      | go =>
        have hx : (endCb σ b .go).cons[a.cons]? = some { x with opened := x.opened.erase a.id } := by
          simp only [endCb, hcur, closeRequest]
          rw [modify_getElem? h1, if_pos rfl]
        refine ⟨_, hx, .inr ⟨?_, by rw [e5]; rfl, ?_⟩⟩
        · rw [hb, g1]; simp [unfinished, stageOf, endCb, hcur, closeRequest]
        · simp only [Dict.find_erase (ho.cons _ _ h1).sorted, if_pos]
      | throwing =>
        refine ⟨x, by simp only [endCb, hcur]; exact h1, .inl ⟨?_, g2⟩⟩
        rw [hb, g1]; simp [unfinished, stageOf, endCb, hcur]
    · rw [hcur] at g; simp [stageOf] at g
  · have hs : stageOf a.cons a.id σ.cur = none := by
      cases hq : σ.cur <;> try rfl
      rename_i c' id' cb t st
      simp only [stageOf]
      rw [if_neg]
      rintro ⟨rfl, rfl⟩; exact hcur ⟨_, _, _, hq⟩
    have hu : unfinished a.cons a.id (endCb σ b c) = unfinished a.cons a.id σ := by
      unfold unfinished
      rw [e5, hs]
      rcases endCb_threw σ b c with e | ⟨k, id, cb, t, st, hq, _, e⟩
      · rw [e]; rfl
      · rw [e, List.count_append, List.count_singleton]
        have : ((k, id) == (a.cons, a.id)) = false := by
          rw [beq_eq_false_iff_ne]
          intro e'; cases e'; exact hcur ⟨_, _, _, hq⟩
        simp [this, stageOf]
    obtain ⟨x', hx', _⟩ := endCb_cons' (b := b) (c := c) h1
    refine ⟨x', hx', ?_⟩
    have hf : x'.opened.find a.id = x.opened.find a.id := by
      obtain ⟨y, hy, rfl | ⟨id, cb, t, st, hc, _, rfl⟩⟩ := endCb_cons hx'
      · rw [h1] at hy; cases hy; rfl
      · rw [h1] at hy; cases hy
        simp only [Dict.find_erase (ho.cons _ _ h1).sorted]
        rw [if_neg]
        rintro rfl; exact hcur ⟨_, _, _, hc⟩
    rw [hb, hu, hf, e5]
    rcases h2 with g | ⟨g1, _, g2⟩
    · exact .inl g
    · exact .inr ⟨g1, rfl, g2⟩

theorem counted_register {σ σ' : St} (hi : Hist σ) (hd : Distinct σ') {c : Nat} {x : Cons} {id : Str} {cb : Cb} {t : Tree}
    (hx : σ.cons[c]? = some x) (hcur : σ'.cur = σ.cur) (hth : σ'.threw = σ.threw)
    (hc : σ'.cons = σ.cons.set c { x with opened := x.opened.insert id cb }) (he : σ'.evs = σ.evs)
    (ha : σ'.asked = σ.asked ++ [⟨c, id, cb, t, σ.bus.log.length⟩]) {a : Asked} (hm : a ∈ σ'.asked)
    (h : a ∈ σ.asked → Counted σ a) : Counted σ' a := by
  have hnew : ∀ b ∈ σ.asked, ¬(b.cons = c ∧ b.id = id) := by
    rintro b hb' ⟨h1, h2⟩
    unfold Distinct at hd
    rw [ha, List.map_append, List.nodup_append] at hd
    exact hd.2.2 _ (List.mem_map.2 ⟨b, hb', rfl⟩) (c, id) (List.mem_singleton.2 rfl) (by rw [h1, h2])
  rw [ha] at hm
  rcases List.mem_append.1 hm with hm | hm
  · refine (h hm).keep (by rw [hcur]) he hth ?_
    intro y hy
    refine ⟨_, by rw [hc]; exact set_getElem? hy, ?_⟩
    split
    · rename_i e
      rw [e, hx] at hy; cases hy
      simp only [Dict.find_insert]
      rw [if_neg]
      intro e'; exact hnew a hm ⟨e, e'.symm⟩
    · rfl
  · simp only [List.mem_singleton] at hm
    subst hm
    refine ⟨{ x with opened := x.opened.insert id cb }, by rw [hc]; simp only; rw [set_getElem? hx, if_pos rfl], .inl ⟨?_, by simp⟩⟩
    have h0 : (c, id) ∉ σ.threw := fun hm => by
      obtain ⟨_, a, ha, e1, e2, _⟩ := hi.threw c id hm
      exact hnew a ha ⟨e1, e2⟩
    have hs : stageOf c id σ.cur = none := by
      cases hq : σ.cur <;> try rfl
      rename_i c' id' cb' t' st'
      simp only [stageOf]
      rw [if_neg]
      rintro ⟨rfl, rfl⟩
      obtain ⟨a, ha, e1, e2, _⟩ := (hi.ansEv _ _ _ _ (hi.curAns _ _ _ _ _ hq).1).1
      exact hnew a ha ⟨e1, e2⟩
    simp only [begun, unfinished]
    rw [he, answers_nil hi hnew, hth, List.count_eq_zero_of_not_mem h0, hcur, hs]; rfl

/-- Every request is counted. -/
def AllCounted (σ : St) : Prop := Distinct σ → ∀ a ∈ σ.asked, Counted σ a

theorem counted_step {σ σ' : St} {a : Act} (ho : Own σ) (hi : Hist σ) (h : AllCounted σ) (hs : step σ a = .to σ') :
    AllCounted σ' := by
  have m := mono_step hs
  intro hd r hr
  have hold : r ∈ σ.asked → Counted σ r := fun hr => h (hd.old m) r hr
  cases step_eff hs with
  | client a b h1 h2 => exact (hold hr).same rfl rfl rfl rfl
  | endCb c b h1 h2 h3 h4 h5 h6 =>
    have hr' : r ∈ σ.asked := by rwa [(endCb_same σ b c).2.2.2.2.2.2.2.1] at hr
    exact counted_end ho (hold hr') h6
  | quiet c b h1 h2 h3 h4 h5 => exact (hold hr).same rfl rfl rfl rfl
  | deliver c b d h1 h2 h3 h4 h5 h6 =>
    have hr' : r ∈ σ.asked := by rwa [(dispatch_same { σ with bus := b } d).2.2.2.2.2.2.1] at hr
    exact counted_deliver hi (hold hr') h3
  | test c id n t f h1 h2 h3 => exact (hold hr).stage h1 rfl rfl rfl rfl
  | store c id n t f h1 h2 h3 => exact (hold hr).stage h1 rfl rfl rfl rfl
  | flag c id n t f h1 h2 h3 => exact (hold hr).stage h1 rfl rfl rfl rfl
  | wake c id n t f h1 h2 h3 => exact (hold hr).stage h1 rfl rfl rfl rfl
  | consumer q s topic b h1 h2 h3 h4 h5 h6 h7 h8 h9 h10 h11 =>
    exact (hold hr).keep Iff.rfl rfl rfl (fun x hx => ⟨x, getElem?_append_old hx, rfl⟩)
  | provider s q topic cb b h1 h2 h3 h4 h5 h6 h7 h8 h9 h10 h11 => exact (hold hr).same rfl rfl rfl rfl
  | reset p => exact (hold hr).same rfl rfl rfl rfl
  | request c id k t x hx => exact counted_register hi hd hx rfl rfl rfl rfl rfl hr hold
  | begin c id t onBus x hx ho => exact counted_register hi hd hx rfl rfl rfl rfl rfl hr hold
  | send i p x b h1 h2 h3 => exact (hold hr).same rfl rfl rfl rfl
  | respond p id t x b h1 h2 => exact (hold hr).same rfl rfl rfl rfl
  | look n f h1 h2 h3 => exact (hold hr).same rfl rfl rfl rfl
  | leave n f h1 h2 h3 => exact (hold hr).same rfl rfl rfl rfl
  | sleep n f h1 h2 => exact (hold hr).same rfl rfl rfl rfl
  | spurious n f h1 h2 => exact (hold hr).same rfl rfl rfl rfl
  | timeout n f h1 h2 => exact (hold hr).same rfl rfl rfl rfl

theorem Reachable.counted {σ : St} (h : Reachable σ) : AllCounted σ := by
  refine reachable_induct (P := AllCounted) ?_ (fun σ a σ' hr hp hs => counted_step hr.own hr.hist hp hs) h
  intro name b hb _ a ha
  simp at ha

end LP.Action
