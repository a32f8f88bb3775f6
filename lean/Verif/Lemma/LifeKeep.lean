import Verif.Lemma.Life
import Verif.Spec.Life
/-! What keeps objects alive, what persists, and that destructors come to an end. -/
namespace LP.Life

theorem Reachable.inv {σ : St} (h : Reachable σ) : Inv σ := by
  obtain ⟨as, e⟩ := h; exact inv_exec inv_init e

theorem exec_append {σ σ' : St} {as bs : List Act} (h : exec σ as = .to σ') : exec σ (as ++ bs) = exec σ' bs := by
  induction as generalizing σ with
  | nil => cases h; rfl
  | cons a as ih =>
    obtain ⟨σ1, e1, e2⟩ := exec_cons h
    simp only [List.cons_append, exec, e1]
    exact ih e2

theorem Reachable.exec {σ σ' : St} (h : Reachable σ) {as : List Act} (e : exec σ as = .to σ') : Reachable σ' := by
  obtain ⟨bs, e'⟩ := h
  exact ⟨bs ++ as, by rw [exec_append e']; exact e⟩

theorem owned_fns {o : Obj} {a : Nat} (h : a ∈ o.owned) : (∃ f ∈ o.fns, a ∈ f.owns) ∨
    (∃ b, o = .bus b ∧ (a ∈ b.kids ∨ a ∈ b.parts)) ∨ ∃ k s p fs, o = .act k s p fs ∧ (a = s ∨ a = p) := by
  cases o with
  | bus b => simp only [Obj.owned, List.mem_append] at h; exact .inr (.inl ⟨b, rfl, h⟩)
  | sub cb => simp only [Obj.owned, List.mem_flatMap] at h; exact .inl h
  | pub fn => cases h
  | act k s p fs =>
    simp only [Obj.owned, List.mem_cons, List.mem_flatMap] at h
    rcases h with h | h | h
    · exact .inr (.inr ⟨k, s, p, fs, rfl, .inl h⟩)
    · exact .inr (.inr ⟨k, s, p, fs, rfl, .inr h⟩)
    · exact .inl h

theorem bus_not_part {σ : St} (h : Inv σ) {b j : Nat} {o : BusO} {q : Obj} (hb : σ.obj b = some (.bus o))
    (hj : σ.obj j = some q) (hm : b ∈ q.owned) : Captured σ b ∨ ∃ bo, q = .bus bo ∧ b ∈ bo.kids := by
  rcases owned_fns hm with ⟨f, hf, ha⟩ | ⟨bo, e, hk | hp⟩ | ⟨k, s, p, fs, e, e'⟩
  · exact .inl ⟨j, q, f, hj, hf, ha⟩
  · exact .inr ⟨bo, e, hk⟩
  · subst e; exact absurd hb ((h.parts j bo hj b hp).2 o)
  · subst e
    obtain ⟨⟨l, g1⟩, ⟨fn, g2⟩, _⟩ := h.act j k s p fs hj
    rcases e' with e' | e' <;> subst e'
    · rw [hb] at g1; cases g1
    · rw [hb] at g2; cases g2

/-- A live bus is kept, or below a live one that is. -/
theorem bus_kept {σ : St} (h : Inv σ) (hs : σ.settled = true) : ∀ b, LiveBus σ b → BusKept σ b := by
  intro b
  induction b using Nat.strongRecOn with
  | _ b ih =>
    rintro ⟨o, hb⟩
    have ref := (settled_iff h.fresh).1 hs b (by rw [hb]; exact fun h => by cases h)
    have kept : Kept σ b → BusKept σ b := fun k => ⟨b, ⟨o, hb⟩, k, .refl⟩
    rcases ref with hh | ⟨j, q, hj, hm⟩
    · exact kept (.inl hh)
    · rcases bus_not_part h hb hj hm with hc | ⟨bo, e, hk⟩
      · exact kept (.inr hc)
      · subst e
        have hp := (h.kids j bo hj b hk).2
        obtain ⟨a, la, ka, ab⟩ := ih j (h.par _ _ hp).1 ⟨bo, hj⟩
        exact ⟨a, la, ka, .child hp ab⟩

theorem above_live {σ : St} (h : Inv σ) {a b : Nat} (ab : Above σ a b) (ha : LiveBus σ a) : LiveBus σ b := by
  induction ab with
  | refl => exact ha
  | child hp _ ih =>
    obtain ⟨o, ho⟩ := ih
    obtain ⟨bo, e, hk⟩ := (h.par _ _ hp).2.2 _ ho
    cases e
    exact (h.kids _ _ ho _ hk).1

theorem above_owns {σ : St} (h : Inv σ) {a b : Nat} (ab : Above σ a b) (ha : LiveBus σ a) : Owns σ a b := by
  induction ab with
  | refl => exact .refl
  | child hp ab ih =>
    obtain ⟨o, ho⟩ := above_live h ab ha
    obtain ⟨bo, e, hk⟩ := (h.par _ _ hp).2.2 _ ho
    cases e
    exact .more ih ho (by simp [Obj.owned, hk])

/-- Everything alive is owned by something kept. -/
theorem live_kept {σ : St} (h : Inv σ) (hs : σ.settled = true) {x : Nat} (hx : σ.obj x ≠ none) :
    ∃ a, Kept σ a ∧ Owns σ a x := by
  have viaBus : ∀ b, LiveBus σ b → ∃ a, Kept σ a ∧ Owns σ a b := by
    intro b hb
    obtain ⟨a, la, ka, ab⟩ := bus_kept h hs b hb
    exact ⟨a, ka, above_owns h ab la⟩
  rcases (settled_iff h.fresh).1 hs x hx with hh | ⟨j, q, hj, hm⟩
  · exact ⟨x, .inl hh, .refl⟩
  · rcases owned_fns hm with ⟨f, hf, ha⟩ | ⟨bo, e, _⟩ | ⟨k, s, p, fs, e, _⟩
    · exact ⟨x, .inr ⟨j, q, f, hj, hf, ha⟩, .refl⟩
    · subst e
      obtain ⟨a, ka, oa⟩ := viaBus j ⟨bo, hj⟩
      exact ⟨a, ka, .more oa hj hm⟩
    · subst e
      obtain ⟨⟨l, g1⟩, _⟩ := h.act j k s p fs hj
      exact ⟨j, .inr ⟨s, _, ⟨[j], l⟩, g1, by simp [Obj.fns], by simp⟩, .more .refl hj hm⟩

/-- While a bus forwards, the buses above it are alive. -/
theorem above_fwd {σ : St} (h : Inv σ) {a b r : Nat} (ab : Above σ a b) : ∀ o, σ.obj b = some (.bus o) → o.fwd = some r →
    ∃ ao, σ.obj a = some (.bus ao) ∧ ao.fwd = some r := by
  induction ab with
  | refl => intro o ho hr; exact ⟨o, ho, hr⟩
  | child hp _ ih =>
    intro o ho hr
    rcases h.fwd _ _ _ ho hr with e | ⟨p', po, e1, e2, e3⟩
    · subst e
      rw [h.root _ _ ho hr] at hp; cases hp
    · rw [hp] at e1; cases e1; exact ih po e2 e3

theorem fwd_above {σ : St} (h : Inv σ) {r : Nat} : ∀ c o, σ.obj c = some (.bus o) → o.fwd = some r → Above σ r c := by
  intro c
  induction c using Nat.strongRecOn with
  | _ c ih =>
    intro o hc hr
    rcases h.fwd c o r hc hr with e | ⟨p, po, e1, e2, e3⟩
    · subst e; exact .refl
    · exact .child e1 (ih p (h.par _ _ e1).1 po e2 e3)

/-- What publishing through a publisher comes to. -/
theorem publish_eq {σ : St} (h : Inv σ) {p b : Nat} {l : Option Nat} (hp : σ.obj p = some (.pub (some (b, l))))
    (hl : σ.runs l = true) : (LiveBus σ b → publish σ p = .to σ) ∧ (¬ LiveBus σ b → publish σ p = .ub) := by
  constructor
  · rintro ⟨o, ho⟩
    simp only [publish, hp, hl, if_true, ho, forward]
    cases e : o.fwd with
    | none => rfl
    | some r =>
      obtain ⟨_, ro, hr, _⟩ := fwd_root h b o ho e
      simp [hr]
  · intro hn
    simp only [publish, hp, hl, if_true]
    split
    · rename_i o ho; exact absurd ⟨o, ho⟩ hn
    · rfl

theorem unref_act {σ : St} (h : Inv σ) {a : Nat} {k : Bool} {s p : Nat} {fs : List Fn} (ha : σ.obj a = some (.act k s p fs)) :
    σ.unreferenced a = false := by
  cases e : σ.unreferenced a with
  | false => rfl
  | true =>
    rw [unreferenced_iff h.fresh] at e
    obtain ⟨⟨l, g1⟩, _⟩ := h.act a k s p fs ha
    exact absurd (by simp [Obj.owned]) (e.2 s _ g1)

theorem cut_act {σ σ' : St} (ct : Cut σ σ') {a : Nat} {o : Obj} (hb : ∀ b, o ≠ .bus b) (h : σ.obj a = some o) :
    σ'.obj a = some o := by
  rcases ct.obj a with e | ⟨b, e, _⟩
  · rw [e]; exact h
  · rw [h] at e; cases e; exact absurd rfl (hb b)

theorem destroy_other {σ σ' : St} {x : Nat} (hs : destroy σ x = .to σ') {a : Nat} {o : Obj} (hb : ∀ b, o ≠ .bus b)
    (h : σ.obj a = some o) (hx : x ≠ a) : σ'.obj a = some o := by
  obtain ⟨_, _, e⟩ := destroy_to hs
  subst e
  simp only [St.put]
  rw [if_neg (fun e => hx e.symm)]
  exact cut_act (cut_detach _ _ _) hb h

theorem act_call {σ σ' : St} (h : Inv σ) {x : Act} (hs : call σ x = .to σ') {a : Nat} {k : Bool} {s p : Nat} {fs : List Fn}
    (ha : σ.obj a = some (.act k s p fs)) :
    ∃ fs', σ'.obj a = some (.act k s p fs') ∧ ((∀ i, x ≠ .erase a i) → ∀ f ∈ fs, f ∈ fs') := by
  have han : a < σ.n := by
    apply Nat.lt_of_not_le; intro hn; rw [h.fresh a hn] at ha; cases ha
  cases x with
  | request b fn =>
    simp only [call] at hs
    repeat' split at hs
    all_goals first | (cases hs; done) | skip
    rename_i hh _ s' p' fs' hb
    cases publish_to hs
    by_cases e : a = b
    · subst e; rw [ha] at hb; cases hb
      exact ⟨fn :: fs, if_pos rfl, fun _ f hf => List.mem_cons_of_mem _ hf⟩
    · exact ⟨fs, by simp only [St.put]; rw [if_neg e]; exact ha, fun _ f hf => hf⟩
  | erase b i =>
    simp only [call] at hs
    repeat' split at hs
    all_goals cases hs
    rename_i s' p' fs' hb _ f hf hl
    by_cases e : a = b
    · subst e; rw [ha] at hb; cases hb
      exact ⟨_, if_pos rfl, fun hne => absurd rfl (hne i)⟩
    · exact ⟨fs, by simp only [St.put]; rw [if_neg e]; exact ha, fun _ f hf => hf⟩
  | detach b =>
    simp only [call] at hs
    repeat' split at hs
    all_goals cases hs
    exact ⟨fs, cut_act (cut_detach _ _ _) (by intro b hb; cases hb) ha, fun _ f hf => hf⟩
  | destroy y => cases hs
  | publish y =>
    simp only [call] at hs
    repeat' split at hs
    all_goals first | (cases hs; done) | (cases publish_to hs; exact ⟨fs, ha, fun _ f hf => hf⟩)
  | respond y =>
    simp only [call] at hs
    repeat' split at hs
    all_goals first | (cases hs; done) | (cases publish_to hs; exact ⟨fs, ha, fun _ f hf => hf⟩)
  | busPublish y =>
    simp only [call] at hs
    repeat' split at hs
    all_goals first | (cases hs; done) | (cases forward_to hs; exact ⟨fs, ha, fun _ f hf => hf⟩)
  | _ =>
    simp only [call] at hs
    repeat' split at hs
    all_goals first | (cases hs; done) | skip
    all_goals cases hs
    all_goals refine ⟨fs, ?_, fun _ f hf => hf⟩
    all_goals try simp only [St.hold, St.put, St.alloc]
    all_goals grind

theorem act_step {σ σ' : St} (h : Inv σ) {x : Act} (hs : step σ x = .to σ') {a : Nat} {k : Bool} {s p : Nat} {fs : List Fn}
    (ha : σ.obj a = some (.act k s p fs)) :
    ∃ fs', σ'.obj a = some (.act k s p fs') ∧ ((∀ i, x ≠ .erase a i) → ∀ f ∈ fs, f ∈ fs') := by
  rcases step_to hs with ⟨y, _, e⟩ | ⟨_, e⟩
  · refine ⟨fs, destroy_other e (by intro b hb; cases hb) ha ?_, fun _ f hf => hf⟩
    intro e'; subst e'
    have := (destroy_to e).1
    rw [unref_act h ha] at this; cases this
  · exact act_call h e ha

theorem closed_step {σ σ' : St} {x : Act} (hs : step σ x = .to σ') {l : Nat} (hl : l ∈ σ.closed) : l ∈ σ'.closed := by
  rcases step_to hs with ⟨y, _, e⟩ | ⟨_, e⟩
  · obtain ⟨_, _, e⟩ := destroy_to e
    subst e
    show l ∈ (detach σ.n y σ).closed
    rw [(cut_detach _ _ _).closed]; exact hl
  · cases x with
    | detach b =>
      simp only [call] at e
      repeat' split at e
      all_goals cases e
      rw [(cut_detach _ _ _).closed]; exact hl
    | request b fn =>
      simp only [call] at e
      repeat' split at e
      all_goals first | (cases e; done) | (cases publish_to e; exact hl)
    | publish y =>
      simp only [call] at e
      repeat' split at e
      all_goals first | (cases e; done) | (cases publish_to e; exact hl)
    | respond y =>
      simp only [call] at e
      repeat' split at e
      all_goals first | (cases e; done) | (cases publish_to e; exact hl)
    | busPublish y =>
      simp only [call] at e
      repeat' split at e
      all_goals first | (cases e; done) | (cases forward_to e; exact hl)
    | destroy y => cases e
    | _ =>
      simp only [call] at e
      repeat' split at e
      all_goals first | (cases e; done) | (cases e; first | exact hl | exact List.mem_cons_of_mem _ hl)

theorem stale_iff {σ : St} {o : Obj} : σ.stale o = true ↔ ∃ l ∈ o.code, l ∈ σ.closed := by
  simp [St.stale]

theorem code_eraseIdx {fs : List Fn} {i l : Nat} {f : Fn} (hi : fs[i]? = some f) (hf : f.lib ≠ some l)
    (h : l ∈ fs.filterMap Fn.lib) : l ∈ (fs.eraseIdx i).filterMap Fn.lib := by
  obtain ⟨g, hg, e⟩ := List.mem_filterMap.1 h
  refine List.mem_filterMap.2 ⟨g, ?_, e⟩
  obtain ⟨j, hj⟩ := List.mem_iff_getElem?.1 hg
  by_cases hij : j = i
  · subst hij; rw [hi] at hj; cases hj; exact absurd e hf
  · rw [List.mem_eraseIdx_iff_getElem?]
    exact ⟨j, hij, hj⟩

/-- Code of a closed library stays where it is. -/
theorem hasCode_step {σ σ' : St} (h : Inv σ) {y : Act} (hs : step σ y = .to σ') {x l : Nat} (hl : l ∈ σ.closed)
    (hx : HasCode σ x l) : HasCode σ' x l := by
  obtain ⟨o, ho, hc⟩ := hx
  have hn : ∀ b, o ≠ .bus b := by intro b e; subst e; cases hc
  have hxn : x < σ.n := by
    apply Nat.lt_of_not_le; intro hn; rw [h.fresh x hn] at ho; cases ho
  rcases step_to hs with ⟨z, _, e⟩ | ⟨_, e⟩
  · refine ⟨o, destroy_other e hn ho ?_, hc⟩
    intro e'; subst e'
    obtain ⟨_, ⟨o', ho', hst⟩, _⟩ := destroy_to e
    rw [ho] at ho'; cases ho'
    have : σ.stale o = true := stale_iff.2 ⟨l, hc, hl⟩
    rw [this] at hst; cases hst
  · cases y with
    | detach b =>
      simp only [call] at e
      repeat' split at e
      all_goals cases e
      exact ⟨o, cut_act (cut_detach _ _ _) hn ho, hc⟩
    | request b fn =>
      simp only [call] at e
      repeat' split at e
      all_goals first | (cases e; done) | skip
      rename_i hh _ s' p' fs' hb
      cases publish_to e
      by_cases e : x = b
      · subst e; rw [ho] at hb; cases hb
        refine ⟨_, if_pos rfl, ?_⟩
        simp only [Obj.code, List.mem_filterMap] at hc ⊢
        obtain ⟨g, hg, eg⟩ := hc
        exact ⟨g, List.mem_cons_of_mem _ hg, eg⟩
      · exact ⟨o, by simp only [St.put]; rw [if_neg e]; exact ho, hc⟩
    | erase b i =>
      simp only [call] at e
      repeat' split at e
      all_goals cases e
      rename_i s' p' fs' hb _ f hf hr
      by_cases e : x = b
      · subst e; rw [ho] at hb; cases hb
        refine ⟨_, if_pos rfl, code_eraseIdx hf ?_ hc⟩
        intro e; rw [e] at hr; simp [St.runs, hl] at hr
      · exact ⟨o, by simp only [St.put]; rw [if_neg e]; exact ho, hc⟩
    | setCb s cb =>
      simp only [call] at e
      repeat' split at e
      all_goals cases e
      rename_i _ _ old hb hst
      by_cases e : x = s
      · subst e; rw [ho] at hb; cases hb
        exact absurd (stale_iff.2 ⟨l, hc, hl⟩) hst
      · exact ⟨o, by simp only [St.put]; rw [if_neg e]; exact ho, hc⟩
    | delete b p =>
      simp only [call] at e
      repeat' split at e
      all_goals cases e
      all_goals
        rename_i _ _ _ bo old hb hp hst
        by_cases e : x = p
        · subst e; rw [ho] at hp; cases hp
          exact absurd (stale_iff.2 ⟨l, hc, hl⟩) hst
        · refine ⟨o, ?_, hc⟩
          simp only [St.put]
          rw [if_neg, if_neg e]
          · exact ho
          · intro e; subst e; rw [ho] at hb; cases hb; exact hn _ rfl
    | publish z =>
      simp only [call] at e
      repeat' split at e
      all_goals first | (cases e; done) | (cases publish_to e; exact ⟨o, ho, hc⟩)
    | respond z =>
      simp only [call] at e
      repeat' split at e
      all_goals first | (cases e; done) | (cases publish_to e; exact ⟨o, ho, hc⟩)
    | busPublish z =>
      simp only [call] at e
      repeat' split at e
      all_goals first | (cases e; done) | (cases forward_to e; exact ⟨o, ho, hc⟩)
    | destroy z => cases e
    | _ =>
      simp only [call] at e
      repeat' split at e
      all_goals first | (cases e; done) | skip
      all_goals cases e
      all_goals refine ⟨o, ?_, hc⟩
      all_goals try simp only [St.hold, St.put, St.alloc]
      all_goals grind

/-- The number of live objects. -/
def live (σ : St) : Nat := (List.range σ.n).countP (fun i => (σ.obj i).isSome)

theorem live_destroy {σ σ' : St} (h : Inv σ) {a : Nat} (hs : destroy σ a = .to σ') : live σ' < live σ := by
  obtain ⟨_, ⟨o, ho, _⟩, e⟩ := destroy_to hs
  have ct : Cut σ (body σ a) := cut_detach _ _ _
  have hn : a < σ.n := by
    apply Nat.lt_of_not_le; intro hn; rw [h.fresh a hn] at ho; cases ho
  have hn' : σ'.n = σ.n := by rw [e]; exact ct.n
  have some' : ∀ i, (σ'.obj i).isSome = true → (σ.obj i).isSome = true ∧ i ≠ a := by
    intro i hi
    rw [e] at hi
    simp only [St.put] at hi
    split at hi
    · cases hi
    · rename_i hia
      refine ⟨?_, hia⟩
      rcases ct.obj i with e1 | ⟨b, e1, _⟩
      · rw [← e1]; exact hi
      · rw [e1]; rfl
  have key : ∀ (l : List Nat), (l.countP (fun i => (σ'.obj i).isSome) ≤ l.countP (fun i => (σ.obj i).isSome)) ∧
      (a ∈ l → l.countP (fun i => (σ'.obj i).isSome) < l.countP (fun i => (σ.obj i).isSome)) := by
    intro l
    induction l with
    | nil => simp
    | cons x l ih =>
      simp only [List.countP_cons]
      have hx := some' x
      constructor
      · have := ih.1
        split <;> split <;> grind
      · intro hm
        rcases List.mem_cons.1 hm with e1 | e1
        · subst e1
          have h1 : ¬ (σ'.obj a).isSome = true := fun h => (hx h).2 rfl
          have h2 : (σ.obj a).isSome = true := by rw [ho]; rfl
          rw [if_neg h1, if_pos h2]
          have := ih.1
          omega
        · have := ih.2 e1
          split <;> split <;> grind
  unfold live
  rw [hn']
  exact (key _).2 (List.mem_range.2 hn)

/-- Destructors come to an end, or one of them is undefined. -/
theorem settles : ∀ (m : Nat) (σ : St), Inv σ → live σ ≤ m → ∃ ds : List Nat,
    exec σ (ds.map .destroy) = .ub ∨ ∃ σ', exec σ (ds.map .destroy) = .to σ' ∧ σ'.settled = true := by
  intro m
  induction m with
  | zero =>
    intro σ h hm
    refine ⟨[], .inr ⟨σ, rfl, ?_⟩⟩
    rw [settled_iff h.fresh]
    intro i hi
    exfalso
    have hn : i < σ.n := by
      apply Nat.lt_of_not_le; intro hn; exact hi (h.fresh i hn)
    have : 0 < live σ := List.countP_pos_iff.2 ⟨i, List.mem_range.2 hn, by cases e : σ.obj i <;> simp_all⟩
    omega
  | succ m ih =>
    intro σ h hm
    cases hst : σ.settled with
    | true => exact ⟨[], .inr ⟨σ, rfl, hst⟩⟩
    | false =>
      have : ∃ i o, σ.obj i = some o ∧ σ.unreferenced i = true := by
        simp only [St.settled, List.all_eq_false, List.mem_range] at hst
        obtain ⟨i, _, hi⟩ := hst
        simp only [Bool.or_eq_true, Bool.not_eq_true', not_or] at hi
        cases e : σ.obj i with
        | none => rw [e] at hi; simp at hi
        | some o => exact ⟨i, o, e, by simpa using hi.2⟩
      obtain ⟨i, o, hi, hu⟩ := this
      cases hs : σ.stale o with
      | true =>
        refine ⟨[i], .inl ?_⟩
        simp [exec, step, destroy, hi, hu, hs]
      | false =>
        have hd : destroy σ i = .to ((body σ i).put i none) := by simp [destroy, hi, hu, hs]
        obtain ⟨ds, hds⟩ := ih _ (inv_destroy h hu) (by have := live_destroy h hd; omega)
        refine ⟨i :: ds, ?_⟩
        have : exec σ ((i :: ds).map .destroy) = exec ((body σ i).put i none) (ds.map .destroy) := by
          simp [exec, step, hd]
        rw [this]; exact hds

/-- No live object contains code of a closed library. -/
def Clean (σ : St) : Prop := ∀ x o, σ.obj x = some o → ∀ l ∈ o.code, l ∉ σ.closed

theorem runs_iff {σ : St} {lib : Option Nat} : σ.runs lib = true ↔ ∀ l, lib = some l → l ∉ σ.closed := by
  cases lib <;> simp [St.runs]

theorem code_toList {cb : Option Fn} {l : Nat} : l ∈ cb.toList.filterMap Fn.lib ↔ ∃ f, cb = some f ∧ f.lib = some l := by
  cases cb <;> simp

theorem clean_put {σ : St} (h : Clean σ) {a : Nat} {o : Obj} (ho : ∀ l ∈ o.code, l ∉ σ.closed) : Clean (σ.put a (some o)) := by
  intro x q hx
  simp only [St.put] at hx
  split at hx
  · cases hx; exact ho
  · exact h x q hx

theorem clean_bus {σ : St} (h : Clean σ) {a : Nat} {b : BusO} : Clean (σ.put a (some (.bus b))) :=
  clean_put h (fun l hl => by cases hl)

theorem clean_alloc {σ : St} (h : Clean σ) {o : Obj} (ho : ∀ l ∈ o.code, l ∉ σ.closed) : Clean (σ.alloc o) :=
  clean_put h ho

theorem clean_obj {σ σ' : St} (h : Clean σ) (e : σ'.obj = σ.obj) (e' : σ'.closed = σ.closed) : Clean σ' := by
  intro x o hx; rw [e] at hx; rw [e']; exact h x o hx

theorem clean_cut {σ σ' : St} (h : Clean σ) (ct : Cut σ σ') : Clean σ' := by
  intro x o hx
  rw [ct.closed]
  rcases ct.back hx with e | ⟨b, _, e⟩
  · exact h x o e
  · subst e; intro l hl; cases hl

theorem clean_step {σ σ' : St} (h : Clean σ) {a : Act} (hc : Careful σ a) (hs : step σ a = .to σ') : Clean σ' := by
  rcases step_to hs with ⟨y, _, e⟩ | ⟨_, e⟩
  · obtain ⟨_, _, e⟩ := destroy_to e
    subst e
    intro x o hx
    simp only [St.put] at hx
    split at hx
    · cases hx
    · exact clean_cut h (cut_detach _ _ _) x o hx
  · cases a with
    | newRoot => cases e; exact clean_obj (clean_alloc h (o := .bus _) (fun l hl => by cases hl)) rfl rfl
    | createChild b =>
      simp only [call] at e
      repeat' split at e
      all_goals cases e
      · exact h
      · exact clean_obj (clean_bus (clean_alloc h (o := .bus _) (fun l hl => by cases hl))) rfl rfl
    | getChild b c =>
      simp only [call] at e
      repeat' split at e
      all_goals cases e
      exact clean_obj h rfl rfl
    | createSub b cb =>
      simp only [call] at e
      repeat' split at e
      all_goals cases e
      rename_i hh _ o hb
      refine clean_obj (clean_bus (clean_alloc h ?_)) rfl rfl
      intro l hl
      obtain ⟨f, hf, hfl⟩ := code_toList.1 hl
      have := hh.2; rw [hf] at this
      exact runs_iff.1 (mayUse_owns this).2 l hfl
    | createPub b lib =>
      simp only [call] at e
      repeat' split at e
      all_goals cases e
      rename_i hh _ o hb
      refine clean_obj (clean_bus (clean_alloc h ?_)) rfl rfl
      intro l hl
      simp only [Obj.code, Option.toList_some, List.filterMap_cons, List.filterMap_nil] at hl
      cases lib with
      | none => cases hl
      | some l' => simp at hl; subst hl; exact runs_iff.1 hh.2 l rfl
    | createAct b fn lib =>
      simp only [call] at e
      repeat' split at e
      all_goals cases e
      rename_i hh _ o hb
      have hlib : ∀ l, lib = some l → l ∉ σ.closed := runs_iff.1 hh.2.1
      refine clean_obj (clean_bus (clean_alloc (clean_alloc (clean_alloc h ?_) ?_) ?_)) rfl rfl
      · intro l hl
        obtain ⟨f, hf, hfl⟩ := code_toList.1 hl
        cases hf; exact hlib l hfl
      · intro l hl
        simp only [Obj.code, Option.toList_some, List.filterMap_cons, List.filterMap_nil] at hl
        cases lib with
        | none => cases hl
        | some l' => simp at hl; subst hl; exact hlib l rfl
      · intro l hl
        obtain ⟨f, hf, hfl⟩ := code_toList.1 hl
        subst hf
        exact runs_iff.1 (mayUse_owns hh.2.2).2 l hfl
    | setCb s cb =>
      simp only [call] at e
      repeat' split at e
      all_goals cases e
      rename_i hh _ o hb _
      refine clean_put h ?_
      intro l hl
      obtain ⟨f, hf, hfl⟩ := code_toList.1 hl
      have := hh.2; rw [hf] at this
      exact runs_iff.1 (mayUse_owns this).2 l hfl
    | request a fn =>
      simp only [call] at e
      repeat' split at e
      all_goals first | (cases e; done) | skip
      rename_i hh _ s p fs ha
      cases publish_to e
      refine clean_put h ?_
      intro l hl
      obtain ⟨f, hf, hfl⟩ := List.mem_filterMap.1 hl
      rcases List.mem_cons.1 hf with e | e
      · subst e; exact runs_iff.1 (mayUse_owns hh.2).2 l hfl
      · exact h a _ ha l (List.mem_filterMap.2 ⟨f, e, hfl⟩)
    | erase a i =>
      simp only [call] at e
      repeat' split at e
      all_goals cases e
      rename_i s' p' fs' hb _ f hf hr
      refine clean_put h ?_
      intro l hl
      obtain ⟨f, hf, hfl⟩ := List.mem_filterMap.1 hl
      exact h a _ hb l (List.mem_filterMap.2 ⟨f, List.mem_of_mem_eraseIdx hf, hfl⟩)
    | respond a =>
      simp only [call] at e
      repeat' split at e
      all_goals first | (cases e; done) | (cases publish_to e; exact h)
    | delete b p =>
      simp only [call] at e
      repeat' split at e
      all_goals cases e
      · exact clean_bus (clean_put h (fun l hl => by cases hl))
      · exact clean_bus (clean_put h (fun l hl => by cases hl))
    | publish p =>
      simp only [call] at e
      repeat' split at e
      all_goals first | (cases e; done) | (cases publish_to e; exact h)
    | busPublish b =>
      simp only [call] at e
      repeat' split at e
      all_goals first | (cases e; done) | (cases forward_to e; exact h)
    | detach b =>
      simp only [call] at e
      repeat' split at e
      all_goals cases e
      exact clean_cut h (cut_detach _ _ _)
    | deliver b s i =>
      simp only [call] at e
      repeat' split at e
      all_goals first | (cases e; done) | (cases e; exact h)
    | copy a =>
      simp only [call] at e
      repeat' split at e
      all_goals cases e
      exact clean_obj h rfl rfl
    | captured i a =>
      simp only [call] at e
      repeat' split at e
      all_goals cases e
      exact clean_obj h rfl rfl
    | drop a =>
      simp only [call] at e
      repeat' split at e
      all_goals cases e
      exact clean_obj h rfl rfl
    | close l =>
      cases e
      intro x o hx l' hl' hm
      rcases List.mem_cons.1 hm with e | e
      · subst e; exact hc x ⟨o, hx, hl'⟩
      · exact h x o hx l' hl' e
    | destroy a => cases e

theorem publish_careful {σ : St} (h : Inv σ) (hc : Clean σ) {p : Nat} (hp : ∀ b, BusOf σ p b → LiveBus σ b) :
    publish σ p ≠ .ub := by
  intro e
  cases ho : σ.obj p with
  | none => simp [publish, ho] at e
  | some o =>
    cases o with
    | pub fn =>
      cases fn with
      | none => simp [publish, ho] at e
      | some q =>
        obtain ⟨b, l⟩ := q
        have hl : σ.runs l = true := by
          rw [runs_iff]; intro l' e'; subst e'
          exact hc p _ ho l' (by simp [Obj.code])
        rw [(publish_eq h ho hl).1 (hp b ⟨l, ho⟩)] at e; cases e
    | bus b => simp [publish, ho] at e
    | sub cb => simp [publish, ho] at e
    | act k s q fs => simp [publish, ho] at e

theorem clean_stale {σ : St} (h : Clean σ) {x : Nat} {o : Obj} (hx : σ.obj x = some o) : ¬ σ.stale o = true := by
  rw [stale_iff]; rintro ⟨l, h1, h2⟩; exact h x o hx l h1 h2

theorem held_bus {σ : St} (h : Inv σ) {p b : Nat} (hb : BusOf σ p b) (hh : b ∈ σ.held) : LiveBus σ b := by
  obtain ⟨l, hp⟩ := hb
  have := h.heldLive b hh
  cases e : σ.obj b with
  | none => exact absurd e this
  | some o => obtain ⟨bo, e'⟩ := (h.pub p b l hp).2 o e; subst e'; exact ⟨bo, e⟩

theorem careful_step {σ : St} (h : Inv σ) (hc : Clean σ) {a : Act} (ha : Careful σ a) : step σ a ≠ .ub := by
  intro e
  unfold step at e
  split at e
  · rename_i x
    unfold destroy at e
    split at e
    · cases e
    · rename_i o ho
      split at e
      · split at e
        · exact clean_stale hc ho (by assumption)
        · cases e
      · cases e
  · split at e
    · cases a with
      | setCb s cb =>
        simp only [call] at e
        repeat' split at e
        all_goals first | (cases e; done) | skip
        rename_i hh _ o hb hst
        exact clean_stale hc hb hst
      | request a fn =>
        simp only [call] at e
        repeat' split at e
        all_goals first | (cases e; done) | skip
        rename_i hh _ s p fs hx
        have hin : Inv (σ.put a (some (.act false s p (fn :: fs)))) := by
          refine inv_setFns h hx ?_
          intro f hf
          rcases List.mem_cons.1 hf with e | e
          · subst e; exact .inr (mayUse_owns hh.2).1
          · exact .inl e
        have hcl : Clean (σ.put a (some (.act false s p (fn :: fs)))) := by
          refine clean_put hc ?_
          intro l hl
          obtain ⟨f, hf, hfl⟩ := List.mem_filterMap.1 hl
          rcases List.mem_cons.1 hf with e | e
          · subst e; exact runs_iff.1 (mayUse_owns hh.2).2 l hfl
          · exact hc a _ hx l (List.mem_filterMap.2 ⟨f, e, hfl⟩)
        refine publish_careful hin hcl ?_ e
        intro b hb
        have hb' : BusOf σ p b := by
          obtain ⟨l, hl⟩ := hb
          refine ⟨l, ?_⟩
          simp only [St.put] at hl
          split at hl
          · cases hl
          · exact hl
        exact held_bus hin hb (ha _ _ _ _ hx b hb')
      | erase a i =>
        simp only [call] at e
        repeat' split at e
        all_goals first | (cases e; done) | skip
        rename_i s' p' fs' hb _ f hf hr
        refine hr ?_
        rw [runs_iff]; intro l hl
        exact hc a _ hb l (List.mem_filterMap.2 ⟨f, List.mem_of_getElem? hf, hl⟩)
      | respond a =>
        simp only [call] at e
        repeat' split at e
        all_goals first | (cases e; done) | skip
        rename_i hh _ s p fs hx
        exact publish_careful h hc (fun b hb => held_bus h hb (ha _ _ _ _ hx b hb)) e
      | delete b p =>
        simp only [call] at e
        repeat' split at e
        all_goals first | (cases e; done) | skip
        · rename_i hh _ _ o cb hb hp hst
          exact clean_stale hc hp hst
        · rename_i hh _ _ o cb hb hp hst
          exact clean_stale hc hp hst
      | publish p =>
        simp only [call] at e
        repeat' split at e
        all_goals first | (cases e; done) | skip
        exact publish_careful h hc (fun b hb => held_bus h hb (ha b hb)) e
      | busPublish b =>
        simp only [call] at e
        repeat' split at e
        all_goals first | (cases e; done) | skip
        rename_i hh _ o hb
        simp only [forward] at e
        cases e' : o.fwd with
        | none => rw [e'] at e; cases e
        | some r =>
          obtain ⟨_, ro, hr, _⟩ := fwd_root h b o hb e'
          simp [e', hr] at e
      | deliver b s i =>
        simp only [call] at e
        repeat' split at e
        all_goals first | (cases e; done) | skip
        · rename_i o f hb hs hm hr _ a _ s' p' q fs hx hss _ g hg hgl
          refine hgl ?_
          rw [runs_iff]; intro l hl
          exact hc _ _ hx l (List.mem_filterMap.2 ⟨g, List.mem_of_getElem? hg, hl⟩)
        · rename_i o f hb hs hm hr
          refine hr ?_
          rw [runs_iff]; intro l hl
          exact hc _ _ hs l (List.mem_filterMap.2 ⟨f, by simp, hl⟩)
      | _ =>
        simp only [call] at e
        repeat' split at e
        all_goals (cases e; done)
    · cases e

theorem careful_exec : ∀ (as : List Act) (σ : St), Inv σ → Clean σ → AllCareful σ as → exec σ as ≠ .ub := by
  intro as
  induction as with
  | nil => intro σ _ _ _ e; cases e
  | cons a as ih =>
    intro σ h hc ha e
    simp only [exec] at e
    split at e
    · rename_i σ' hs
      exact ih σ' (inv_step h hs) (clean_step hc ha.1 hs) (ha.2 σ' hs) e
    · rename_i hs; exact careful_step h hc ha.1 hs
    · cases e

end LP.Life
