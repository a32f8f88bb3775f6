import Verif.Lemma.SysInfoWorld
/-!
# The invariant of the SysInfo plugin
-/
namespace LP.SysInfo
open LP.Action (Ev Prov showing)

/-- The plugin's objects are what the code made them. -/
structure Objects (σ : St) : Prop where
  pub : ∀ q, σ.pub = some q → q < σ.world.bus.w.np ∧ (σ.world.bus.w.pub q).topic = topic
  sub : ∀ s, σ.sub = some s → s < σ.world.bus.w.ns ∧ (σ.world.bus.w.sub s).topic = topic ∧ (σ.world.bus.w.sub s).home = σ.bus
  rsub : ∀ s, σ.rsub = some s → s < σ.world.bus.w.ns ∧ (σ.world.bus.w.sub s).home = σ.bus ∧ σ.bus < σ.world.bus.w.nb ∧
    s ∈ (σ.world.bus.w.bus σ.bus).subs
  prov : ∀ p, σ.prov = some p → ∃ x : Prov, σ.world.provs[p]? = some x ∧ x.topic = actionTopic ∧ σ.rsub = some x.sub ∧ x.cb = some 0
  apart : ∀ s t, σ.sub = some s → σ.rsub = some t → s ≠ t

/-- The history of the plugin's provider. -/
structure Book (σ : St) : Prop where
  begun : ∀ n, σ.life = .initialising n → σ.prov = none
  loaded : (∀ n, σ.life ≠ .initialising n) → ∃ p, σ.prov = some p
  said : σ.said = true → ∃ p id, σ.prov = some p ∧ σ.world.cur = .providing p id
  book : ∀ p, σ.prov = some p → requested p σ.world.evs = (responded p σ.world.replied).map Prod.fst ++
    (if σ.said then [] else (showing p σ.world.cur).toList)
  same : ∀ p, σ.prov = some p → ∀ r ∈ responded p σ.world.replied, r.2 = reply
  fresh : ∀ n, σ.life = .initialising n → n ≤ 1 → σ.sub = none

theorem lt_ns_of_created {w w' : Action.St} {b : Nat} {t : Str} {cb : Option Nat} (h : Action.step w (.bus (.createSub b t cb)) = .to w') :
    w.bus.w.ns < w'.bus.w.ns ∧ (w'.bus.w.sub w.bus.w.ns).topic = t ∧ (w'.bus.w.sub w.bus.w.ns).home = b ∧
      (w'.bus.w.sub w.bus.w.ns).cb = cb ∧ b < w'.bus.w.nb ∧ w.bus.w.ns ∈ (w'.bus.w.bus b).subs := by
  cases Action.step_eff h with
  | client a b' h1 h2 =>
    simp only [Bus.step] at h2
    split at h2 <;> cases h2
    rename_i hb
    simp [Bus.createSubscriber, Bus.outcome, Bus.World.setBus, Bus.World.setSub, hb.1]

theorem lt_np_of_created {w w' : Action.St} {b : Nat} {t : Str} (h : Action.step w (.bus (.createPub b t)) = .to w') :
    w.bus.w.np < w'.bus.w.np ∧ (w'.bus.w.pub w.bus.w.np).topic = t := by
  cases Action.step_eff h with
  | client a b' h1 h2 =>
    simp only [Bus.step] at h2
    split at h2 <;> cases h2
    simp [Bus.createPublisher, Bus.outcome, Bus.World.setBus, Bus.World.setPub]

/-- Events that touch nothing of the plugin keep the objects. -/
theorem Objects.keep {σ : St} (h : Objects σ) (hr : Action.Reachable σ.world) {a : Action.Act} {w : Action.St}
    (hs : Action.step σ.world a = .to w) (h1 : ∀ s j, σ.rsub = some s → a ≠ .bus (.deleteSub j s))
    (h2 : ∀ p, σ.prov = some p → a ≠ .resetProvider p) : Objects { σ with world := w } := by
  obtain ⟨f1, f2, f3⟩ := Action.fixed hr hs
  refine ⟨?_, ?_, ?_, ?_, h.apart⟩
  · intro q hq
    obtain ⟨g1, g2⟩ := h.pub q hq
    exact ⟨(f2 q g1).1, (f2 q g1).2.trans g2⟩
  · intro s hs'
    obtain ⟨g1, g2, g3⟩ := h.sub s hs'
    exact ⟨(f1 s g1).1, (f1 s g1).2.1.trans g2, (f1 s g1).2.2.trans g3⟩
  · intro s hs'
    obtain ⟨g1, g2, g3, g4⟩ := h.rsub s hs'
    exact ⟨(f1 s g1).1, (f1 s g1).2.2.trans g2, Nat.lt_of_lt_of_le g3 f3, Action.subs_keep hs g3 g4 (fun j => h1 s j hs')⟩
  · intro p hp
    obtain ⟨x, hx, g⟩ := h.prov p hp
    exact ⟨x, Action.provs_keep hs hx (h2 p hp), g⟩

theorem touches_sub {σ : St} {a : Action.Act} (h : touches σ a = false) : (∀ s j, σ.rsub = some s → a ≠ .bus (.deleteSub j s)) ∧
    (∀ p, σ.prov = some p → a ≠ .resetProvider p) ∧ (∀ p, σ.prov = some p → ∀ id u, a ≠ .respond p id u) := by
  refine ⟨?_, ?_, ?_⟩
  · rintro s j hs rfl; simp [touches, hs] at h
  · rintro p hp rfl; simp [touches, hp] at h
  · rintro p hp id u rfl; simp [touches, hp] at h

theorem objects_step {σ σ' : St} {a : Act} (h : Objects σ) (hb : Book σ) (hr : Action.Reachable σ.world) (hs : step σ a = .to σ') : Objects σ' := by
  cases step_eff hs with
  | world a w h1 h2 h3 => exact h.keep hr h3 (touches_sub h1).1 (touches_sub h1).2.1
  | init0 w h1 h2 =>
    have hk := h.keep hr h2 (fun _ _ _ => by simp) (fun _ _ => by simp)
    refine ⟨?_, hk.sub, hk.rsub, hk.prov, hk.apart⟩
    intro q hq
    simp only [Option.some.injEq] at hq
    subst hq
    exact lt_np_of_created h2
  | init1 w h1 h2 =>
    have hk := h.keep hr h2 (fun _ _ _ => by simp) (fun _ _ => by simp)
    refine ⟨hk.pub, ?_, hk.rsub, hk.prov, ?_⟩
    · intro q hq
      simp only [Option.some.injEq] at hq
      subst hq
      have := lt_ns_of_created h2
      exact ⟨this.1, this.2.1, this.2.2.1⟩
    · intro s t hs' ht
      simp only [Option.some.injEq] at hs'
      have := (h.rsub t ht).1
      omega
  | init2 w h1 h2 =>
    have hk := h.keep hr h2 (fun _ _ _ => by simp) (fun _ _ => by simp)
    refine ⟨hk.pub, hk.sub, ?_, ?_, fun s t hs' ht => by simp only [Option.some.injEq] at ht; have := (h.sub s hs').1; omega⟩
    · intro q hq
      simp only [Option.some.injEq] at hq
      subst hq
      have := lt_ns_of_created h2
      exact ⟨this.1, this.2.2.1, this.2.2.2.2.1, this.2.2.2.2.2⟩
    · intro p hp
      have := hb.begun _ h1
      rw [this] at hp; cases hp
  | init3 w h1 h2 =>
    have hk := h.keep hr h2 (fun _ _ _ => by simp) (fun _ _ => by simp)
    exact ⟨hk.pub, hk.sub, hk.rsub, hk.prov, hk.apart⟩
  | init4 s q w h1 h2 h3 h4 =>
    have hk := h.keep hr h4 (fun _ _ _ => by simp) (fun _ _ => by simp)
    refine ⟨hk.pub, hk.sub, hk.rsub, ?_, hk.apart⟩
    intro p hp
    simp only [Option.some.injEq] at hp
    subst hp
    cases Action.step_eff h4 with
    | provider t q topic cb b g1 g2 g3 g4 g5 g6 g7 g8 g9 g10 g11 =>
      exact ⟨⟨actionTopic, s, q, some 0⟩, by simp, rfl, h2, rfl⟩
  | beat q w h1 h2 h3 h4 => exact h.keep hr h4 (fun _ _ _ => by simp) (fun _ _ => by simp)
  | unsub s w h1 h2 h3 =>
    have hk := h.keep hr h3 (fun t j ht e => by cases e; exact h.apart _ _ h2 ht rfl) (fun _ _ => by simp)
    exact ⟨hk.pub, hk.sub, hk.rsub, hk.prov, hk.apart⟩
  | unpub q w h1 h2 h3 =>
    have hk := h.keep hr h3 (fun _ _ _ => by simp) (fun _ _ => by simp)
    exact ⟨hk.pub, hk.sub, hk.rsub, hk.prov, hk.apart⟩
  | destroy h1 => exact ⟨h.pub, h.sub, h.rsub, h.prov, h.apart⟩
  | respond p id w h1 h2 h3 h4 h5 =>
    have hk := h.keep hr h5 (fun _ _ _ => by simp) (fun _ _ => by simp)
    exact ⟨hk.pub, hk.sub, hk.rsub, hk.prov, hk.apart⟩
  | leave p id w h1 h2 h3 h4 h5 =>
    have hk := h.keep hr h5 (fun _ _ _ => by simp) (fun _ _ => by simp)
    exact ⟨hk.pub, hk.sub, hk.rsub, hk.prov, hk.apart⟩
  | heard d w h1 h2 h3 h4 h5 => exact h.keep hr h5 (fun _ _ _ => by simp) (fun _ _ => by simp)

theorem showing_mine {σ : St} {a : Action.Act} (h2 : mine σ = true → byCallback a = false) :
    ∀ p, σ.prov = some p → ∀ id, showing p σ.world.cur = some id → byCallback a = false := by
  intro p hp id hsh
  apply h2
  unfold showing at hsh
  split at hsh
  · rename_i p' id' hc
    split at hsh
    · subst_vars; simp [mine, hc, hp]
    · cases hsh
  · cases hsh

/-- Events other than the provider's responses, outside its callback or without leaving it. -/
theorem Book.keep {σ : St} (h : Book σ) (hr : Action.Reachable σ.world) {a : Action.Act} {w : Action.St}
    (hs : Action.step σ.world a = .to w) (h1 : ∀ p, σ.prov = some p → ∀ id u, a ≠ .respond p id u)
    (hm : ∀ p, σ.prov = some p → ∀ id, showing p σ.world.cur = some id → byCallback a = false) : Book { σ with world := w } := by
  have hbook : ∀ p, σ.prov = some p → requested p w.evs = (responded p w.replied).map Prod.fst ++
      (if σ.said then [] else (showing p w.cur).toList) := by
    intro p hp
    obtain ⟨e1, e2⟩ := Action.history hr hs p (h1 p hp)
    have hb := h.book p hp
    rcases e2 with ⟨e2, e3 | ⟨e3, e4⟩⟩ | ⟨e2, id, e3, e4, e5⟩
    · rw [e1, e2, e3]; exact hb
    · have : showing p σ.world.cur = none := by
        cases hsh : showing p σ.world.cur with
        | none => rfl
        | some id => have := hm p hp id hsh; rw [this] at e3; cases e3
      rw [e1, e2, e4, hb, this]
    · rw [e1, e4, e5, hb, e3]
      have : σ.said = false := by
        cases hsd : σ.said with
        | false => rfl
        | true =>
          obtain ⟨p', id', g1, g2⟩ := h.said hsd
          rw [hp] at g1; cases g1
          rw [g2] at e3; simp [showing] at e3
      rw [this]; simp
  refine ⟨h.begun, h.loaded, ?_, hbook, ?_, h.fresh⟩
  · intro hsd
    obtain ⟨p, id, g1, g2⟩ := h.said hsd
    refine ⟨p, id, g1, ?_⟩
    obtain ⟨e1, e2⟩ := Action.history hr hs p (h1 p g1)
    have hsh : showing p σ.world.cur = some id := by rw [g2]; simp [showing]
    have hcb := hm p g1 id hsh
    have hw : showing p w.cur = some id := by
      rcases e2 with ⟨e2, e3 | ⟨e3, e4⟩⟩ | ⟨e2, _⟩
      · rw [e3]; exact hsh
      · rw [hcb] at e3; cases e3
      · rw [hcb] at e2; cases e2
    unfold showing at hw
    split at hw
    · rename_i p' id' hc
      split at hw
      · cases hw; subst_vars; exact hc
      · cases hw
    · cases hw
  · intro p hp r hr'
    obtain ⟨e1, _⟩ := Action.history hr hs p (h1 p hp)
    simp only [e1] at hr'
    exact h.same p hp r hr'

theorem book_step {σ σ' : St} {a : Act} (h : Book σ) (hr : Action.Reachable σ.world) (hs : step σ a = .to σ') : Book σ' := by
  cases step_eff hs with
  | world a w h1 h2 h3 => exact h.keep hr h3 (touches_sub h1).2.2 (showing_mine h2)
  | init0 w h1 h2 =>
    have hk := h.keep hr h2 (fun _ _ _ _ => by simp) (fun _ _ _ _ => rfl)
    exact ⟨fun _ _ => h.begun _ h1, fun g => absurd rfl (g 1), hk.said, hk.book, hk.same, fun _ _ _ => h.fresh _ h1 (by omega)⟩
  | init1 w h1 h2 =>
    have hk := h.keep hr h2 (fun _ _ _ _ => by simp) (fun _ _ _ _ => rfl)
    exact ⟨fun _ _ => h.begun _ h1, fun g => absurd rfl (g 2), hk.said, hk.book, hk.same, fun n hn _ => by cases hn; omega⟩
  | init2 w h1 h2 =>
    have hk := h.keep hr h2 (fun _ _ _ _ => by simp) (fun _ _ _ _ => rfl)
    exact ⟨fun _ _ => h.begun _ h1, fun g => absurd rfl (g 3), hk.said, hk.book, hk.same, fun n hn _ => by cases hn; omega⟩
  | init3 w h1 h2 =>
    have hk := h.keep hr h2 (fun _ _ _ _ => by simp) (fun _ _ _ _ => rfl)
    exact ⟨fun _ _ => h.begun _ h1, fun g => absurd rfl (g 4), hk.said, hk.book, hk.same, fun n hn _ => by cases hn; omega⟩
  | init4 s q w h1 h2 h3 h4 =>
    have hnone := h.begun _ h1
    have hsd : σ.said = false := by
      cases hsd : σ.said with
      | false => rfl
      | true => obtain ⟨p, id, g, _⟩ := h.said hsd; rw [hnone] at g; cases g
    obtain ⟨n1, n2, n3⟩ := Action.no_history hr
    cases Action.step_eff h4 with
    | provider t q topic cb b g1 g2 g3 g4 g5 g6 g7 g8 g9 g10 g11 =>
      refine ⟨by simp, fun _ => ⟨_, rfl⟩, by simp [hsd], ?_, ?_, by simp⟩
      · intro p hp
        simp only [Option.some.injEq] at hp
        subst hp
        simp only
        rw [n1, n2, n3]; simp
      · intro p hp
        simp only [Option.some.injEq] at hp
        subst hp
        simp only
        rw [n2]; simp
  | beat q w h1 h2 h3 h4 => exact h.keep hr h4 (fun _ _ _ _ => by simp) (fun _ _ _ _ => rfl)
  | unsub s w h1 h2 h3 =>
    have hk := h.keep hr h3 (fun _ _ _ _ => by simp) (fun _ _ _ _ => rfl)
    exact ⟨by simp, fun _ => h.loaded (by simp [h1]), hk.said, hk.book, hk.same, by simp⟩
  | unpub q w h1 h2 h3 =>
    have hk := h.keep hr h3 (fun _ _ _ _ => by simp) (fun _ _ _ _ => rfl)
    exact ⟨by simp, fun _ => h.loaded (by simp [h1]), hk.said, hk.book, hk.same, by simp⟩
  | destroy h1 => exact ⟨by simp, fun _ => h.loaded (by simp [h1]), h.said, h.book, h.same, by simp⟩
  | respond p id w h1 h2 h3 h4 h5 =>
    obtain ⟨e1, e2, e3⟩ := Action.history_respond h5
    refine ⟨h.begun, h.loaded, fun _ => ⟨p, id, h2, by simp only [e3, h1]⟩, ?_, ?_, h.fresh⟩
    · intro p' hp'
      rw [h2] at hp'; cases hp'
      simp only [e1, e2, h.book p h2, h1, h3]
      simp [showing]
    · intro p' hp'
      rw [h2] at hp'; cases hp'
      simp only [e1]
      intro r hr'
      rcases List.mem_append.1 hr' with hr' | hr'
      · exact h.same p h2 r hr'
      · simp only [List.mem_singleton] at hr'; subst hr'; rfl
  | leave p id w h1 h2 h3 h4 h5 =>
    obtain ⟨e1, e2⟩ := Action.history hr h5 p (fun _ _ => by simp)
    have hsh : showing p σ.world.cur = some id := by rw [h1]; simp [showing]
    have hb := h.book p h2
    have hend : w.cur = .idle := by
      cases Action.step_eff h5 with
      | endCb c b g1 g2 g3 g4 g5 g6 => exact (Action.endCb_same σ.world b .go).2.2.2.2.1
      | quiet c b g1 g2 g3 g4 g5 => have := hr.hist.idle.2 g3; rw [h1] at this; cases this
      | deliver c b d g1 g2 g3 g4 g5 g6 => have := hr.hist.idle.2 g3; rw [h1] at this; cases this
    refine ⟨h.begun, h.loaded, by simp, ?_, ?_, h.fresh⟩
    · intro p' hp'
      rw [h2] at hp'; cases hp'
      simp only [e1, hend]
      rcases e2 with ⟨e2, _⟩ | ⟨_, id', e3, _⟩
      · rw [e2, hb, h3]; simp [showing]
      · rw [hsh] at e3; cases e3
    · intro p' hp'
      rw [h2] at hp'; cases hp'
      simp only [e1]
      exact h.same p h2
  | heard d w h1 h2 h3 h4 h5 =>
    exact h.keep hr h5 (fun _ _ _ _ => by simp) (fun p _ id hc => by rw [h1] at hc; simp [showing] at hc)

theorem Reachable.inv {σ : St} (h : Reachable σ) : Objects σ ∧ Book σ := by
  obtain ⟨w, b, s, as, hw, he⟩ := h
  have key := exec_induct (P := fun τ => Action.Reachable τ.world ∧ Objects τ ∧ Book τ) ?_ (σ := create w b s) ?_ he
  · exact key.2
  · rintro τ a τ' ⟨h1, h2, h3⟩ hs
    refine ⟨?_, objects_step h2 h3 h1 hs, book_step h3 h1 hs⟩
    rcases under_step hs with ⟨_, e⟩ | ⟨x, _, e⟩
    · rw [e]; exact h1
    · exact h1.step e
  · exact ⟨hw, ⟨by simp [create], by simp [create], by simp [create], by simp [create], by simp [create]⟩,
      ⟨fun _ _ => rfl, fun g => absurd rfl (g 0), by simp [create], by simp [create], by simp [create], fun _ _ _ => rfl⟩⟩

end LP.SysInfo
