import Verif.Lemma.SysInfo
import Verif.Lemma.BusSub
/-!
# What one event of the hierarchy does to the objects of the plugin
-/
namespace LP.Action
open LP.SysInfo (requested responded byCallback)
open LP.Bus (Delivery)

/-- A registered subscriber stays registered unless it is deleted. -/
theorem subs_keep_bus {b b' : Bus.St} {a : Bus.Act} (h : Bus.step b a = some b') {i s : Nat} (hi : i < b.w.nb)
    (hs : s ∈ (b.w.bus i).subs) (hne : ∀ j, a ≠ .deleteSub j s) : s ∈ (b'.w.bus i).subs := by
  cases a with
  | run c =>
    have := Bus.run_world (c := c) h
    rw [this.1]; exact hs
  | start =>
    simp only [Bus.step] at h; split at h <;> cases h
    simp only [Bus.setRunning, Bus.World.setBus]; split
    · subst_vars; exact hs
    · exact hs
  | startChild c =>
    simp only [Bus.step] at h; split at h <;> cases h
    simp only [Bus.setRunning, Bus.World.setBus]; split
    · subst_vars; exact hs
    · exact hs
  | stop c =>
    simp only [Bus.step] at h; split at h <;> cases h
    simp only [Bus.stop, Bus.World.setBus]; split
    · subst_vars; exact hs
    · exact hs
  | publish c m => simp only [Bus.step] at h; split at h <;> cases h; exact hs
  | pubPublish c m => simp only [Bus.step] at h; split at h <;> cases h; exact hs
  | push c => simp only [Bus.step] at h; split at h <;> cases h; exact hs
  | notify => simp only [Bus.step] at h; split at h <;> cases h; exact hs
  | createChild c name =>
    simp only [Bus.step] at h; split at h <;> cases h
    simp only [Bus.createChildBus]
    repeat' split
    all_goals first
      | exact hs
      | (simp only [Bus.outcome, Bus.World.setBus]
         repeat' split
         all_goals first | exact hs | (subst_vars; first | exact hs | omega))
  | createSub c topic cb =>
    simp only [Bus.step] at h; split at h <;> cases h
    simp only [Bus.createSubscriber, Bus.outcome, Bus.World.setBus, Bus.World.setSub]; split
    · subst_vars; exact List.mem_append_left _ hs
    · exact hs
  | createPub c topic =>
    simp only [Bus.step] at h; split at h <;> cases h
    simp only [Bus.createPublisher, Bus.outcome, Bus.World.setBus, Bus.World.setPub]; split
    · subst_vars; exact hs
    · exact hs
  | deleteSub c t =>
    simp only [Bus.step] at h; split at h <;> cases h
    simp only [Bus.deleteSubscriber, Bus.outcome, Bus.World.setBus, Bus.World.setSub]; split
    · subst_vars
      refine List.mem_filter.2 ⟨hs, ?_⟩
      simp only [bne_iff_ne, ne_eq]
      rintro rfl; exact hne _ rfl
    · exact hs
  | deletePub c t =>
    simp only [Bus.step] at h; split at h <;> cases h
    simp only [Bus.deletePublisher, Bus.outcome, Bus.World.setBus, Bus.World.setPub]; split
    · subst_vars; exact hs
    · exact hs
  | setCb c t => simp only [Bus.step] at h; split at h <;> cases h; exact hs
  | detachOne c =>
    simp only [Bus.step] at h; split at h <;> cases h
    simp only [Bus.detachOne, Bus.World.setBus]; split
    · subst_vars; exact hs
    · exact hs

theorem subs_keep {w w' : St} {a : Act} (h : step w a = .to w') {i s : Nat} (hi : i < w.bus.w.nb)
    (hs : s ∈ (w.bus.w.bus i).subs) (hne : ∀ j, a ≠ .bus (.deleteSub j s)) : s ∈ (w'.bus.w.bus i).subs := by
  have hrun : ∀ {c : Bus.Choice} {b : Bus.St}, Bus.rstep c w.bus = some b → s ∈ (b.w.bus i).subs :=
    fun {c b} hr => subs_keep_bus (a := .run c) hr hi hs (fun _ => by simp)
  cases Action.step_eff h with
  | client a b h1 h2 => exact subs_keep_bus h2 hi hs (fun j e => hne j (by rw [e]))
  | endCb c b h1 h2 h3 h4 h5 h6 => rw [(Action.endCb_same w b c).1]; exact hrun h2
  | quiet c b h1 h2 h3 h4 h5 => exact hrun h2
  | deliver c b d h1 h2 h3 h4 h5 h6 => rw [(Action.dispatch_same { w with bus := b } d).1]; exact hrun h2
  | consumer q t topic b h1 h2 h3 h4 h5 h6 h7 h8 h9 h10 h11 => exact subs_keep_bus h11 hi hs (fun _ => by simp)
  | provider t q topic cb b h1 h2 h3 h4 h5 h6 h7 h8 h9 h10 h11 => exact subs_keep_bus h11 hi hs (fun _ => by simp)
  | send i p x b h1 h2 h3 => exact subs_keep_bus h3 hi hs (fun _ => by simp)
  | respond p id t x b h1 h2 => exact subs_keep_bus h2 hi hs (fun _ => by simp)
  | _ => exact hs

/-- The topics and homes of subscribers and the topics of publishers never change. -/
theorem fixed {w w' : St} {a : Act} (hr : Action.Reachable w) (h : step w a = .to w') :
    (∀ s, s < w.bus.w.ns → s < w'.bus.w.ns ∧ (w'.bus.w.sub s).topic = (w.bus.w.sub s).topic ∧ (w'.bus.w.sub s).home = (w.bus.w.sub s).home) ∧
    (∀ q, q < w.bus.w.np → q < w'.bus.w.np ∧ (w'.bus.w.pub q).topic = (w.bus.w.pub q).topic) ∧ w.bus.w.nb ≤ w'.bus.w.nb := by
  obtain ⟨l, e1, e2, _⟩ := Action.step_bus h
  match l, e1, e2 with
  | [], e1, _ =>
    simp only [Bus.exec, Option.some.injEq] at e1
    rw [← e1]; exact ⟨fun s hs => ⟨hs, rfl, rfl⟩, fun q hq => ⟨hq, rfl⟩, Nat.le_refl _⟩
  | [x], e1, _ =>
    cases hx : Bus.step w.bus x with
    | none => simp [Bus.exec, hx] at e1
    | some b =>
      simp only [Bus.exec, hx, Option.some.injEq] at e1
      rw [← e1]
      refine ⟨?_, ?_, ?_⟩
      · intro s hs
        by_cases hc : ∃ c, x = .run c
        · obtain ⟨c, rfl⟩ := hc
          have := Bus.run_world (c := c) hx
          rw [this.2.2.1, this.2.2.2.1]; exact ⟨hs, rfl, rfl⟩
        · have := (Bus.step_external hr.bus.inv.wok (fun c e => hc ⟨c, e⟩) hx).grows
          exact ⟨Nat.lt_of_lt_of_le hs this.2.1, (this.2.2.2 s hs).2, (this.2.2.2 s hs).1⟩
      · intro q hq
        have := Bus.pub_const_step hq ⟨rfl, rfl⟩ hx
        exact ⟨this.1, this.2.1⟩
      · by_cases hc : ∃ c, x = .run c
        · obtain ⟨c, rfl⟩ := hc
          have := Bus.run_world (c := c) hx
          rw [this.2.1]; exact Nat.le_refl _
        · exact (Bus.step_external hr.bus.inv.wok (fun c e => hc ⟨c, e⟩) hx).grows.1
  | _ :: _ :: _, _, e2 => simp at e2

/-- A provider that is not reset keeps its data. -/
theorem provs_keep {w w' : St} {a : Act} (h : step w a = .to w') {p : Nat} {x : Prov} (hx : w.provs[p]? = some x)
    (hne : a ≠ .resetProvider p) : w'.provs[p]? = some x := by
  cases Action.step_eff h with
  | endCb c b h1 h2 h3 h4 h5 h6 => rw [(Action.endCb_same w b c).2.1]; exact hx
  | deliver c b d h1 h2 h3 h4 h5 h6 => rw [(Action.dispatch_same { w with bus := b } d).2.2.1]; exact hx
  | provider t q topic cb b h1 h2 h3 h4 h5 h6 h7 h8 h9 h10 h11 => exact Action.getElem?_append_old hx
  | reset p' =>
    have hp : p ≠ p' := fun e => hne (by rw [e])
    have := Action.modify_getElem? (c := p') (f := fun x : Prov => { x with cb := none }) hx
    rw [this, if_neg (by first | exact hp | exact fun e => hp e.symm)]
  | _ => exact hx

/-- The id of the request that provider `p` is being shown. -/
def showing (p : Nat) : Action.Cur → Option Str
  | .providing p' id => if p' = p then some id else none
  | _ => none

theorem requested_append (p : Nat) (l m : List Ev) : requested p (l ++ m) = requested p l ++ requested p m := by
  simp [requested, List.filterMap_append]

theorem responded_append (p : Nat) (l m : List (Nat × Str × Tree)) : responded p (l ++ m) = responded p l ++ responded p m := by
  simp [responded, List.filterMap_append]

/-- What an event other than a response by `p` does to the history of `p`. -/
theorem history {w w' : St} {a : Act} (hr : Action.Reachable w) (h : step w a = .to w') (p : Nat) (hne : ∀ id u, a ≠ .respond p id u) :
    responded p w'.replied = responded p w.replied ∧
    ((requested p w'.evs = requested p w.evs ∧ (showing p w'.cur = showing p w.cur ∨ (byCallback a = true ∧ showing p w'.cur = none))) ∨
     (byCallback a = true ∧ ∃ id, showing p w.cur = none ∧ requested p w'.evs = requested p w.evs ++ [id] ∧ showing p w'.cur = some id)) := by
  cases Action.step_eff h with
  | endCb c b h1 h2 h3 h4 h5 h6 =>
    obtain ⟨e1, e2, e3, e4, e5, e6, e7, e8, e9⟩ := Action.endCb_same w b c
    rw [e9, e7, e5]
    exact ⟨rfl, .inl ⟨rfl, .inr ⟨rfl, rfl⟩⟩⟩
  | deliver c b d h1 h2 h3 h4 h5 h6 =>
    obtain ⟨e1, e2, e3, e4, e5, e6, e7, e8, e9⟩ := Action.dispatch_same { w with bus := b } d
    refine ⟨by rw [e8], ?_⟩
    have hid : w.cur = .idle := hr.hist.idle.2 h3
    have hshow : showing p w.cur = none := by rw [hid]; rfl
    rcases Action.dispatch_evs { w with bus := b } d with he | ⟨c', x, id, cb, st, _, _, _, _, he, hc, _⟩ | ⟨p', x, id, k, _, _, _, _, he, hc⟩
    · refine .inl ⟨by rw [he], .inr ⟨rfl, ?_⟩⟩
      have hne : ∀ p id, (dispatch { w with bus := b } d).cur ≠ .providing p id := by
        intro p id hcur
        revert he hcur
        unfold dispatch
        repeat' split
        all_goals simp
      unfold showing
      split
      · rename_i h; exact absurd h (hne _ _)
      · rfl
    · refine .inl ⟨by rw [he, requested_append]; simp [requested], .inr ⟨rfl, by rw [hc]; rfl⟩⟩
    · by_cases hp : p' = p
      · refine .inr ⟨rfl, id, hshow, ?_, ?_⟩
        · rw [he, requested_append]; simp [requested, hp]
        · rw [hc]; simp [showing, hp]
      · refine .inl ⟨?_, .inr ⟨rfl, ?_⟩⟩
        · rw [he, requested_append]; simp [requested, hp]
        · rw [hc]; simp [showing, hp]
  | test c id n t f h1 h2 h3 => exact ⟨rfl, .inl ⟨rfl, .inl (by rw [h1]; rfl)⟩⟩
  | store c id n t f h1 h2 h3 => exact ⟨rfl, .inl ⟨rfl, .inl (by rw [h1]; rfl)⟩⟩
  | flag c id n t f h1 h2 h3 => exact ⟨rfl, .inl ⟨rfl, .inl (by rw [h1]; rfl)⟩⟩
  | wake c id n t f h1 h2 h3 => exact ⟨rfl, .inl ⟨rfl, .inl (by rw [h1]; rfl)⟩⟩
  | respond p' id t x b h1 h2 =>
    have hp : p' ≠ p := fun e => hne id t (by rw [e])
    refine ⟨?_, .inl ⟨rfl, .inl rfl⟩⟩
    simp only [responded_append]
    simp [responded, hp]
  | _ => exact ⟨rfl, .inl ⟨rfl, .inl rfl⟩⟩

/-- A response by `p`. -/
theorem history_respond {w w' : St} {p : Nat} {id : Str} {t : Tree} (h : step w (.respond p id t) = .to w') :
    responded p w'.replied = responded p w.replied ++ [(id, t)] ∧ w'.evs = w.evs ∧ w'.cur = w.cur := by
  cases Action.step_eff h with
  | respond p' id t x b h1 h2 =>
    refine ⟨?_, rfl, rfl⟩
    simp only [responded_append]
    simp [responded]

theorem provs_length {w w' : St} (m : Mono w w') : w.provs.length ≤ w'.provs.length := by
  refine Nat.le_of_not_lt fun hlt => ?_
  obtain ⟨x', hx', _⟩ := m.provs w'.provs.length (w.provs[w'.provs.length]'hlt) (List.getElem?_eq_getElem hlt)
  rw [List.getElem?_eq_none (Nat.le_refl _)] at hx'; cases hx'

/-- Only existing providers respond or are shown requests. -/
theorem only_existing {w : St} (hr : Reachable w) : (∀ r ∈ w.replied, r.1 < w.provs.length) ∧
    ∀ p id, w.cur = .providing p id → p < w.provs.length := by
  refine reachable_induct (P := fun w => (∀ r ∈ w.replied, r.1 < w.provs.length) ∧ ∀ p id, w.cur = .providing p id → p < w.provs.length)
    (fun name b hb => ⟨by simp, by simp⟩) ?_ hr
  intro w a w' hr ⟨h1, h2⟩ hs
  have hm := provs_length (mono_step hs)
  have k1 : w'.replied = w.replied → ∀ r ∈ w'.replied, r.1 < w'.provs.length :=
    fun e r hr => Nat.lt_of_lt_of_le (h1 r (e ▸ hr)) hm
  have k2 : w'.cur = w.cur → ∀ p id, w'.cur = .providing p id → p < w'.provs.length :=
    fun e p id hc => Nat.lt_of_lt_of_le (h2 p id (e ▸ hc)) hm
  cases step_eff hs with
  | endCb c b g1 g2 g3 g4 g5 g6 =>
    obtain ⟨e1, e2, e3, e4, e5, e6, e7, e8, e9⟩ := endCb_same w b c
    exact ⟨k1 e9, fun p id hc => by rw [e5] at hc; cases hc⟩
  | deliver c b d g1 g2 g3 g4 g5 g6 =>
    obtain ⟨e1, e2, e3, e4, e5, e6, e7, e8, e9⟩ := dispatch_same { w with bus := b } d
    refine ⟨k1 e8, fun p id hc => ?_⟩
    rw [e3]
    revert hc
    unfold dispatch
    repeat' split
    all_goals try simp
    rintro rfl rfl
    rename_i hx _ _ _
    exact (List.getElem?_eq_some_iff.1 hx).1
  | test c id n t f h1 h2 h3 => exact ⟨k1 rfl, fun p id hc => by cases hc⟩
  | store c id n t f h1 h2 h3 => exact ⟨k1 rfl, fun p id hc => by cases hc⟩
  | flag c id n t f h1 h2 h3 => exact ⟨k1 rfl, fun p id hc => by cases hc⟩
  | wake c id n t f h1 h2 h3 => exact ⟨k1 rfl, fun p id hc => by cases hc⟩
  | respond p id t x b g1 g2 =>
    refine ⟨fun r hr => ?_, k2 rfl⟩
    rcases List.mem_append.1 hr with hr | hr
    · exact h1 r hr
    · simp only [List.mem_singleton] at hr
      subst hr
      exact (List.getElem?_eq_some_iff.1 g1).1
  | _ => exact ⟨k1 rfl, k2 rfl⟩

/-- Only existing providers have a history. -/
theorem no_history {w : St} (hr : Reachable w) : requested w.provs.length w.evs = [] ∧
    responded w.provs.length w.replied = [] ∧ showing w.provs.length w.cur = none := by
  obtain ⟨h1, h2⟩ := only_existing hr
  refine ⟨?_, ?_, ?_⟩
  · unfold requested
    rw [List.filterMap_eq_nil_iff]
    intro e he
    cases e with
    | answered _ _ _ _ => rfl
    | requested p k id t =>
      obtain ⟨x, hx, _⟩ := hr.hist.reqEv p k id t he
      have := (List.getElem?_eq_some_iff.1 hx).1
      simp; omega
  · unfold responded
    rw [List.filterMap_eq_nil_iff]
    intro r hr
    have := h1 r hr
    simp; omega
  · unfold showing
    split
    · rename_i p id hc
      have := h2 p id hc
      rw [if_neg (by omega)]
    · rfl

end LP.Action
