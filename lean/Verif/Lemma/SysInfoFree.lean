import Verif.Lemma.SysInfoInv
import Verif.Lemma.ActionDone
/-!
# The plugin's lambdas never block
-/
namespace LP.Action

theorem inside_step {σ σ' : St} {a : Act} (hs : step σ a = .to σ') (ha : ∀ c id t, a ≠ .begin c id t true) :
    σ'.inside = σ.inside ∨ σ'.inside = none := by
  cases step_eff hs with
  | endCb c b h1 => exact .inr (endCb_same σ b c).2.2.2.2.2.1
  | deliver c b d h1 => exact .inl (dispatch_same { σ with bus := b } d).2.2.2.2.2.1
  | begin c id t onBus x hx ho =>
    cases onBus with
    | true => exact absurd rfl (ha c id t)
    | false => exact .inl rfl
  | _ => exact .inl rfl

/-- The bus thread gets blocked only by calling `Request` itself. -/
theorem free_step {σ σ' : St} {a : Act} (hk : Calls σ) (hs : step σ a = .to σ') (ha : ∀ c id t, a ≠ .begin c id t true)
    (hb : blocked σ = false) : blocked σ' = false := by
  cases hb' : blocked σ' with
  | false => rfl
  | true =>
    obtain ⟨n, f', h1, h2, h3⟩ := blocked_iff.1 hb'
    rcases inside_step hs ha with e | e
    · rw [e] at h1
      have hlt := hk.inside n h1
      have hf : σ.frames[n]? = some (σ.frames[n]'hlt) := List.getElem?_eq_getElem hlt
      have hd : (σ.frames[n]'hlt).pc = .done := Classical.byContradiction fun hd => by
        have := blocked_iff.2 ⟨n, _, h1, hf, hd⟩
        rw [hb] at this; cases this
      obtain ⟨f'', g1, g2⟩ := frame_step hk hs hf
      rw [h2] at g1; cases g1
      rcases g2 with rfl | ⟨g, _⟩ | ⟨g, _⟩
      · exact absurd hd h3
      · exact absurd hd g
      · exact absurd hd g
    · rw [e] at h1; cases h1

/-- How the running callback changes. -/
theorem running_step {w w' : St} {a : Act} (hs : step w a = .to w') :
    (w'.cur = w.cur ∧ w'.bus.log = w.bus.log) ∨ ((∀ p id, w'.cur ≠ .providing p id) ∧ w'.cur ≠ .plain) ∨ blocked w' = false := by
  cases step_eff hs with
  | client a b h1 h2 => exact .inl ⟨rfl, (client_cases (client_not_run h1) h2).2.2.1⟩
  | endCb c b h1 => refine .inr (.inl ?_); rw [(endCb_same w b c).2.2.2.2.1]; simp
  | quiet c b h1 h2 h3 h4 h5 => exact .inl ⟨rfl, h5⟩
  | deliver c b d h1 =>
    obtain ⟨e1, e2, e3, e4, e5, e6, e7, e8, e9⟩ := dispatch_same { w with bus := b } d
    refine .inr (.inr ?_)
    unfold blocked at h1 ⊢; rw [e5, e6]; exact h1
  | test c id n t f h1 h2 h3 => refine .inr (.inl ?_); simp
  | store c id n t f h1 h2 h3 => refine .inr (.inl ?_); simp
  | flag c id n t f h1 h2 h3 => refine .inr (.inl ?_); simp
  | wake c id n t f h1 h2 h3 => refine .inr (.inl ?_); simp
  | consumer q s topic b h1 h2 h3 h4 h5 h6 h7 h8 h9 h10 h11 => exact .inl ⟨rfl, setCb_log h11⟩
  | provider s q topic cb b h1 h2 h3 h4 h5 h6 h7 h8 h9 h10 h11 => exact .inl ⟨rfl, setCb_log h11⟩
  | send i p x b h1 h2 h3 => exact .inl ⟨rfl, (pubPublish_log h3).1⟩
  | respond p id t x b h1 h2 => exact .inl ⟨rfl, (pubPublish_log h2).1⟩
  | _ => exact .inl ⟨rfl, rfl⟩

end LP.Action

namespace LP.SysInfo
open LP.Action (blocked showing)

theorem mine_congr {σ σ' : St} (h1 : σ'.world.cur = σ.world.cur) (h2 : σ'.world.bus.log = σ.world.bus.log) (h3 : σ'.prov = σ.prov)
    (h4 : σ'.sub = σ.sub) : mine σ' = mine σ := by
  unfold mine; rw [h1, h2, h3, h4]

theorem mine_running {σ : St} (h : mine σ = true) : (∃ p id, σ.world.cur = .providing p id ∧ σ.prov = some p) ∨
    σ.world.cur = .plain ∧ ∃ d, σ.world.bus.log.getLast? = some d ∧ σ.sub = some d.sub := by
  unfold mine at h
  split at h
  · rename_i p id hc; exact .inl ⟨p, id, hc, by simpa using h⟩
  · rename_i hc
    split at h
    · rename_i d hd; exact .inr ⟨hc, d, hd, by simpa using h⟩
    · cases h
  · cases h

theorem free_keep {σ σ' : St} (hr : Action.Reachable σ.world) (h : mine σ = true → blocked σ.world = false) {x : Action.Act}
    (hx : Action.step σ.world x = .to σ'.world) (hc : mine σ = true → ∀ c id t, x ≠ .begin c id t true)
    (hm : σ'.world.cur = σ.world.cur → σ'.world.bus.log = σ.world.bus.log → mine σ' = true → mine σ = true) :
    mine σ' = true → blocked σ'.world = false := by
  intro hm'
  rcases Action.running_step hx with ⟨h1, h2⟩ | ⟨h1, h2⟩ | h1
  · have := hm h1 h2 hm'
    exact Action.free_step hr.calls hx (hc this) (h this)
  · rcases mine_running hm' with ⟨p, id, e, _⟩ | ⟨e, _⟩
    · exact absurd e (h1 p id)
    · exact absurd e h2
  · exact h1

theorem Reachable.free {σ : St} (h : Reachable σ) : mine σ = true → blocked σ.world = false := by
  obtain ⟨w, b, s, as, hw, he⟩ := h
  have key := exec_induct (P := fun τ => Reachable τ ∧ (mine τ = true → blocked τ.world = false)) ?_ (σ := create w b s) ?_ he
  · exact key.2
  · rintro τ a τ' ⟨h1, h2⟩ hs
    refine ⟨h1.step hs, ?_⟩
    have hr := h1.world
    have same : τ'.prov = τ.prov → τ'.sub = τ.sub → τ'.world.cur = τ.world.cur → τ'.world.bus.log = τ.world.bus.log →
        mine τ' = true → mine τ = true := fun e1 e2 e3 e4 h => by rw [mine_congr e3 e4 e1 e2] at h; exact h
    cases step_eff hs with
    | world a w g1 g2 g3 =>
      exact free_keep hr h2 g3 (fun hm c id t e => by have := g2 hm; rw [e] at this; cases this) (same rfl rfl)
    | init0 w g1 g2 => exact free_keep hr h2 g2 (fun _ _ _ _ => by simp) (same rfl rfl)
    | init1 w g1 g2 =>
      refine free_keep hr h2 g2 (fun _ _ _ _ => by simp) ?_
      intro e1 e2 hm
      rcases mine_running hm with ⟨p, id, _, e⟩ | ⟨_, d, hd, e⟩
      · simp only at e; rw [h1.inv.2.begun _ g1] at e; cases e
      · simp only [Option.some.injEq] at e e2 hd
        rw [e2] at hd
        have := (Bus.C30_no_spurious_delivery τ.world.bus hr.bus d (List.mem_of_getLast? hd)).1
        omega
    | init2 w g1 g2 => exact free_keep hr h2 g2 (fun _ _ _ _ => by simp) (same rfl rfl)
    | init3 w g1 g2 => exact free_keep hr h2 g2 (fun _ _ _ _ => by simp) (same rfl rfl)
    | init4 s q w g1 g2 g3 g4 =>
      refine free_keep hr h2 g4 (fun _ _ _ _ => by simp) ?_
      intro e1 e2 hm
      rcases mine_running hm with ⟨p, id, hc, e⟩ | ⟨hc, d, hd, e⟩
      · simp only [Option.some.injEq] at e hc e1
        have := (Action.no_history hr).2.2
        rw [← e1, hc] at this
        simp [showing, e] at this
      · simp only at hc hd e e1 e2
        unfold mine
        rw [← e1, hc, ← e2, hd, e]; simp
    | beat q w g1 g2 g3 g4 => exact free_keep hr h2 g4 (fun _ _ _ _ => by simp) (same rfl rfl)
    | unsub s w g1 g2 g3 => exact free_keep hr h2 g3 (fun _ _ _ _ => by simp) (same rfl rfl)
    | unpub q w g1 g2 g3 => exact free_keep hr h2 g3 (fun _ _ _ _ => by simp) (same rfl rfl)
    | destroy g1 => exact h2
    | respond p id w g1 g2 g3 g4 g5 => exact free_keep hr h2 g5 (fun _ _ _ _ => by simp) (same rfl rfl)
    | leave p id w g1 g2 g3 g4 g5 => exact free_keep hr h2 g5 (fun _ _ _ _ => by simp) (same rfl rfl)
    | heard d w g1 g2 g3 g4 g5 => exact free_keep hr h2 g5 (fun _ _ _ _ => by simp) (same rfl rfl)
  · refine ⟨⟨w, b, s, [], hw, rfl⟩, ?_⟩
    intro hm
    rcases mine_running hm with ⟨p, id, _, e⟩ | ⟨_, d, _, e⟩ <;> cases e

theorem mine_inCb {σ : St} (h : Reachable σ) (hm : mine σ = true) : ∃ m st batch, σ.world.bus.phase = .visit m st true batch := by
  refine Action.inCb_visit ?_
  cases hi : Action.inCb σ.world.bus.phase with
  | true => rfl
  | false =>
    have := h.world.hist.idle.2 hi
    rcases mine_running hm with ⟨p, id, e, _⟩ | ⟨e, _⟩ <;> rw [this] at e <;> cases e

/-- While the bus thread is inside a lambda of the plugin, nobody else moves it. -/
theorem mine_stays {σ σ' : St} {a : Act} (h : Reachable σ) (hm : mine σ = true) (ha : a ≠ .code) (hs : step σ a = .to σ') :
    mine σ' = true ∧ σ'.world.cur = σ.world.cur ∧ σ'.world.bus.log = σ.world.bus.log ∧ σ'.world.bus.phase = σ.world.bus.phase ∧
      σ'.said = σ.said := by
  obtain ⟨m, st, batch, hp⟩ := mine_inCb h hm
  have hin : Action.inCb σ.world.bus.phase = true := by rw [hp]; rfl
  have hlam : ∀ {c : Nat} {id : Str} {cb : Action.Cb} {t : Tree} {st : Action.Stage}, σ.world.cur ≠ .answering c id cb t st := by
    intro c id cb t st e
    rcases mine_running hm with ⟨_, _, e', _⟩ | ⟨e', _⟩ <;> rw [e] at e' <;> cases e'
  have key : ∀ {x : Action.Act} {w : Action.St}, byCallback x = false → Action.step σ.world x = .to w →
      w.cur = σ.world.cur ∧ w.bus.log = σ.world.bus.log ∧ w.bus.phase = σ.world.bus.phase := by
    intro x w hx hw
    cases Action.step_eff hw with
    | client a b h1 h2 =>
      exact ⟨rfl, (Action.client_cases (Action.client_not_run h1) h2).2.2.1, Action.client_phase (Action.client_not_run h1) hin h2⟩
    | endCb c b h1 h2 h3 h4 h5 h6 => cases hx
    | quiet c b h1 h2 h3 h4 h5 => cases hx
    | deliver c b d h1 h2 h3 h4 h5 h6 => cases hx
    | test c id n t f h1 h2 h3 => exact absurd h1 hlam
    | store c id n t f h1 h2 h3 => exact absurd h1 hlam
    | flag c id n t f h1 h2 h3 => exact absurd h1 hlam
    | wake c id n t f h1 h2 h3 => exact absurd h1 hlam
    | consumer q s topic b h1 h2 h3 h4 h5 h6 h7 h8 h9 h10 h11 =>
      exact ⟨rfl, Action.setCb_log h11, Action.client_phase (fun _ => by simp) hin h11⟩
    | provider s q topic cb b h1 h2 h3 h4 h5 h6 h7 h8 h9 h10 h11 =>
      exact ⟨rfl, Action.setCb_log h11, Action.client_phase (fun _ => by simp) hin h11⟩
    | send i p x b h1 h2 h3 => exact ⟨rfl, Action.pubPublish_log h3⟩
    | respond p id t x b h1 h2 => exact ⟨rfl, Action.pubPublish_log h2⟩
    | _ => exact ⟨rfl, rfl, rfl⟩
  have done : ∀ {x : Action.Act}, byCallback x = false → Action.step σ.world x = .to σ'.world → σ'.said = σ.said →
      (∀ p id, σ.world.cur = .providing p id → σ.prov = some p → σ'.prov = some p) →
      (∀ s, σ.sub = some s → σ'.sub = some s) →
      mine σ' = true ∧ σ'.world.cur = σ.world.cur ∧ σ'.world.bus.log = σ.world.bus.log ∧ σ'.world.bus.phase = σ.world.bus.phase ∧
      σ'.said = σ.said := by
    intro x hx hw hsd hpr hsu
    obtain ⟨k1, k2, k3⟩ := key hx hw
    refine ⟨?_, k1, k2, k3, hsd⟩
    rcases mine_running hm with ⟨p, id, e, e'⟩ | ⟨e, d, hd, e'⟩
    · have := hpr p id e e'
      unfold mine; rw [k1, e, this]; simp
    · have := hsu _ e'
      unfold mine; rw [k1, e, k2, hd, this]; simp
  cases step_eff hs with
  | world a w g1 g2 g3 => exact done (g2 hm) g3 rfl (fun _ _ _ e => e) (fun _ e => e)
  | init0 w g1 g2 => exact done rfl g2 rfl (fun _ _ _ e => e) (fun _ e => e)
  | init1 w g1 g2 =>
    refine done rfl g2 rfl (fun _ _ _ e => e) (fun s e => ?_)
    rw [h.inv.2.fresh _ g1 (Nat.le_refl _)] at e; cases e
  | init2 w g1 g2 => exact done rfl g2 rfl (fun _ _ _ e => e) (fun _ e => e)
  | init3 w g1 g2 => exact done rfl g2 rfl (fun _ _ _ e => e) (fun _ e => e)
  | init4 s q w g1 g2 g3 g4 =>
    refine done rfl g4 rfl (fun p id _ e => ?_) (fun _ e => e)
    rw [h.inv.2.begun _ g1] at e; cases e
  | beat q w g1 g2 g3 g4 => exact done rfl g4 rfl (fun _ _ _ e => e) (fun _ e => e)
  | unsub s w g1 g2 g3 => exact done rfl g3 rfl (fun _ _ _ e => e) (fun _ e => e)
  | unpub q w g1 g2 g3 => exact done rfl g3 rfl (fun _ _ _ e => e) (fun _ e => e)
  | destroy g1 => exact ⟨hm, rfl, rfl, rfl, rfl⟩
  | respond p id w g1 g2 g3 g4 g5 => exact absurd rfl ha
  | leave p id w g1 g2 g3 g4 g5 => exact absurd rfl ha
  | heard d w g1 g2 g3 g4 g5 => exact absurd rfl ha

end LP.SysInfo
