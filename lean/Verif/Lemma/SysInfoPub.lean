import Verif.Lemma.SysInfoInv
import Verif.Lemma.BusMore
/-!
# The plugin's publisher is usable as long as it has not been deleted
-/
namespace LP.Bus

/-- A publisher stays usable unless it is deleted. -/
theorem pub_active_step {p : Nat} {σ σ' : St} {a : Act} (hp : p < σ.w.np) (h : (σ.w.pub p).active = true) (ha : ∀ b, a ≠ .deletePub b p)
    (hs : step σ a = some σ') : (σ'.w.pub p).active = true := by
  cases a with
  | run c => rw [(run_world hs).2.2.2.2.1]; exact h
  | start =>
    simp only [step] at hs
    cases hph : σ.phase <;> simp only [hph] at hs <;> try contradiction
    cases hs; exact h
  | push i =>
    simp only [step] at hs
    split at hs <;> try contradiction
    cases hs; exact h
  | createChild b name =>
    simp only [step] at hs
    split at hs <;> try contradiction
    cases hs
    rcases createChildBus_cases σ.w b name with he | ⟨_, _, _, he⟩
    · simp only [he]; exact h
    · simp only [he, outcome, World.setBus]; exact h
  | createPub b t =>
    simp only [step] at hs
    split at hs <;> try contradiction
    cases hs
    simp only [createPublisher, outcome, World.setBus, World.setPub]
    rw [if_neg (by omega)]; exact h
  | deletePub b q =>
    simp only [step] at hs
    split at hs <;> try contradiction
    cases hs
    simp only [deletePublisher, outcome, World.setBus, World.setPub]
    rw [if_neg (by rintro rfl; exact ha _ rfl)]; exact h
  | _ =>
    simp only [step] at hs
    split at hs <;> try contradiction
    cases hs
    exact h

end LP.Bus

namespace LP.Action

theorem active_step {w w' : St} {a : Act} (h : step w a = .to w') {q : Nat} (hq : q < w.bus.w.np) (hact : (w.bus.w.pub q).active = true)
    (hne : ∀ j, a ≠ .bus (.deletePub j q)) : (w'.bus.w.pub q).active = true := by
  have hrun : ∀ {c : Bus.Choice} {b : Bus.St}, Bus.rstep c w.bus = some b → (b.w.pub q).active = true :=
    fun {c b} hr => Bus.pub_active_step (a := .run c) hq hact (fun _ => by simp) hr
  cases step_eff h with
  | client a b h1 h2 => exact Bus.pub_active_step hq hact (fun j e => hne j (by rw [e])) h2
  | endCb c b h1 h2 h3 h4 h5 h6 => rw [(endCb_same w b c).1]; exact hrun h2
  | quiet c b h1 h2 h3 h4 h5 => exact hrun h2
  | deliver c b d h1 h2 h3 h4 h5 h6 => rw [(dispatch_same { w with bus := b } d).1]; exact hrun h2
  | consumer q t topic b h1 h2 h3 h4 h5 h6 h7 h8 h9 h10 h11 => exact Bus.pub_active_step hq hact (fun _ => by simp) h11
  | provider t q topic cb b h1 h2 h3 h4 h5 h6 h7 h8 h9 h10 h11 => exact Bus.pub_active_step hq hact (fun _ => by simp) h11
  | send i p x b h1 h2 h3 => exact Bus.pub_active_step hq hact (fun _ => by simp) h3
  | respond p id t x b h1 h2 => exact Bus.pub_active_step hq hact (fun _ => by simp) h2
  | _ => exact hact

/-- The bus of a publisher never changes. -/
theorem home_step {w w' : St} {a : Act} (h : step w a = .to w') {q : Nat} (hq : q < w.bus.w.np) : (w'.bus.w.pub q).bus = (w.bus.w.pub q).bus := by
  obtain ⟨l, e1, e2, _⟩ := Action.step_bus h
  match l, e1, e2 with
  | [], e1, _ => simp only [Bus.exec, Option.some.injEq] at e1; rw [← e1]
  | [x], e1, _ =>
    cases hx : Bus.step w.bus x with
    | none => simp [Bus.exec, hx] at e1
    | some b =>
      simp only [Bus.exec, hx, Option.some.injEq] at e1
      rw [← e1]; exact (Bus.pub_const_step hq ⟨rfl, rfl⟩ hx).2.2
  | _ :: _ :: _, _, e2 => simp at e2

end LP.Action

namespace LP.SysInfo

/-- How many of the five statements of `Initialize` have been executed. -/
def Life.done : Life → Nat
  | .initialising n => n
  | _ => 5

/-- The publisher has been made and not been deleted. -/
def Life.publishing : Life → Bool
  | .initialising n => 1 ≤ n
  | .loaded => true
  | .unsubscribed => true
  | _ => false

/-- The pointers are set by the statements that set them. -/
structure Wired (σ : St) : Prop where
  pub : 1 ≤ σ.life.done → ∃ q, σ.pub = some q
  sub : 2 ≤ σ.life.done → ∃ s, σ.sub = some s
  rsub : 3 ≤ σ.life.done → ∃ s, σ.rsub = some s
  rpub : 4 ≤ σ.life.done → ∃ q, σ.rpub = some q
  apart : ∀ q r, σ.pub = some q → σ.rpub = some r → q ≠ r
  rlt : ∀ r, σ.rpub = some r → r < σ.world.bus.w.np
  active : σ.life.publishing = true → ∀ q, σ.pub = some q → (σ.world.bus.w.pub q).active = true
  home : ∀ q, σ.pub = some q → (σ.world.bus.w.pub q).bus = σ.bus
  le : σ.life.done ≤ 5 ∧ ∀ n, σ.life = .initialising n → n ≤ 4

theorem pub_of_created {w w' : Action.St} {b : Nat} {t : Str} (h : Action.step w (.bus (.createPub b t)) = .to w') :
    (w'.bus.w.pub w.bus.w.np).active = true ∧ (w'.bus.w.pub w.bus.w.np).bus = b := by
  cases Action.step_eff h with
  | client a b' h1 h2 =>
    simp only [Bus.step] at h2
    split at h2 <;> cases h2
    simp [Bus.createPublisher, Bus.outcome, Bus.World.setBus, Bus.World.setPub]

theorem Wired.keep {σ : St} (h : Wired σ) (ho : Objects σ) (hr : Action.Reachable σ.world) {a : Action.Act} {w : Action.St} (hs : Action.step σ.world a = .to w)
    (h1 : ∀ q j, σ.pub = some q → a ≠ .bus (.deletePub j q)) : Wired { σ with world := w } := by
  obtain ⟨f1, f2, f3⟩ := Action.fixed hr hs
  exact ⟨h.pub, h.sub, h.rsub, h.rpub, h.apart, fun r hr' => (f2 r (h.rlt r hr')).1,
    fun hp q hq => Action.active_step hs (ho.pub q hq).1 (h.active hp q hq) (fun j => h1 q j hq),
    fun q hq => (Action.home_step hs (ho.pub q hq).1).trans (h.home q hq), h.le⟩

theorem set_step {σ σ' : St} {a : Act} (h : Wired σ) (ho : Objects σ) (hr : Action.Reachable σ.world) (hs : step σ a = .to σ') : Wired σ' := by
  cases step_eff hs with
  | world a w h1 h2 h3 => exact h.keep ho hr h3 (by rintro q j hq rfl; simp [touches, hq] at h1)
  | init0 w h1 h2 =>
    have hk := h.keep ho hr h2 (fun _ _ _ => by simp)
    obtain ⟨p1, p2⟩ := pub_of_created h2
    refine ⟨fun _ => ⟨_, rfl⟩, by simp [Life.done], by simp [Life.done], by simp [Life.done], ?_, hk.rlt, ?_, ?_, by simp [Life.done]⟩
    · intro q r hq hr'
      simp only [Option.some.injEq] at hq
      have := h.rlt r hr'; omega
    · intro _ q hq; simp only [Option.some.injEq] at hq; subst hq; exact p1
    · intro q hq; simp only [Option.some.injEq] at hq; subst hq; exact p2
  | init1 w h1 h2 =>
    have hk := h.keep ho hr h2 (fun _ _ _ => by simp)
    exact ⟨fun _ => h.pub (by simp [h1, Life.done]), fun _ => ⟨_, rfl⟩, by simp [Life.done], by simp [Life.done], hk.apart, hk.rlt,
      fun _ => hk.active (by simp [h1, Life.publishing]), hk.home, by simp [Life.done]⟩
  | init2 w h1 h2 =>
    have hk := h.keep ho hr h2 (fun _ _ _ => by simp)
    exact ⟨fun _ => h.pub (by simp [h1, Life.done]), fun _ => h.sub (by simp [h1, Life.done]), fun _ => ⟨_, rfl⟩, by simp [Life.done], hk.apart, hk.rlt,
      fun _ => hk.active (by simp [h1, Life.publishing]), hk.home, by simp [Life.done]⟩
  | init3 w h1 h2 =>
    have hk := h.keep ho hr h2 (fun _ _ _ => by simp)
    refine ⟨fun _ => h.pub (by simp [h1, Life.done]), fun _ => h.sub (by simp [h1, Life.done]), fun _ => h.rsub (by simp [h1, Life.done]), fun _ => ⟨_, rfl⟩, ?_, ?_,
      fun _ => hk.active (by simp [h1, Life.publishing]), hk.home, by simp [Life.done]⟩
    · intro q r hq hr'
      simp only [Option.some.injEq] at hr'
      have := (ho.pub q hq).1; omega
    · intro r hr'
      simp only [Option.some.injEq] at hr'
      subst hr'; exact (lt_np_of_created h2).1
  | init4 s q w h1 h2 h3 h4 =>
    have hk := h.keep ho hr h4 (fun _ _ _ => by simp)
    exact ⟨fun _ => h.pub (by simp [h1, Life.done]), fun _ => h.sub (by simp [h1, Life.done]), fun _ => h.rsub (by simp [h1, Life.done]),
      fun _ => h.rpub (by simp [h1, Life.done]), hk.apart, hk.rlt, fun _ => hk.active (by simp [h1, Life.publishing]), hk.home, by simp [Life.done]⟩
  | beat q w h1 h2 h3 h4 => exact h.keep ho hr h4 (fun _ _ _ => by simp)
  | unsub s w h1 h2 h3 =>
    have hk := h.keep ho hr h3 (fun _ _ _ => by simp)
    exact ⟨fun _ => h.pub (by simp [h1, Life.done]), fun _ => h.sub (by simp [h1, Life.done]), fun _ => h.rsub (by simp [h1, Life.done]),
      fun _ => h.rpub (by simp [h1, Life.done]), hk.apart, hk.rlt, fun _ => hk.active (by simp [h1, Life.publishing]), hk.home, by simp [Life.done]⟩
  | unpub q w h1 h2 h3 =>
    have f2 := (Action.fixed hr h3).2.1
    exact ⟨fun _ => h.pub (by simp [h1, Life.done]), fun _ => h.sub (by simp [h1, Life.done]), fun _ => h.rsub (by simp [h1, Life.done]),
      fun _ => h.rpub (by simp [h1, Life.done]), h.apart, fun r hr' => (f2 r (h.rlt r hr')).1, by simp [Life.publishing],
      fun q hq => (Action.home_step h3 (ho.pub q hq).1).trans (h.home q hq), by simp [Life.done]⟩
  | destroy h1 =>
    exact ⟨fun _ => h.pub (by simp [h1, Life.done]), fun _ => h.sub (by simp [h1, Life.done]), fun _ => h.rsub (by simp [h1, Life.done]),
      fun _ => h.rpub (by simp [h1, Life.done]), h.apart, h.rlt, by simp [Life.publishing], h.home, by simp [Life.done]⟩
  | respond p id w h1 h2 h3 h4 h5 =>
    have hk := h.keep ho hr h5 (fun _ _ _ => by simp)
    exact ⟨hk.pub, hk.sub, hk.rsub, hk.rpub, hk.apart, hk.rlt, hk.active, hk.home, hk.le⟩
  | leave p id w h1 h2 h3 h4 h5 =>
    have hk := h.keep ho hr h5 (fun _ _ _ => by simp)
    exact ⟨hk.pub, hk.sub, hk.rsub, hk.rpub, hk.apart, hk.rlt, hk.active, hk.home, hk.le⟩
  | heard d w h1 h2 h3 h4 h5 => exact h.keep ho hr h5 (fun _ _ _ => by simp)

theorem Reachable.set {σ : St} (h : Reachable σ) : Wired σ := by
  obtain ⟨w, bus, send, as, hw, he⟩ := h
  refine (exec_induct (P := fun τ => Reachable τ ∧ Wired τ) ?_ ⟨⟨w, bus, send, [], hw, rfl⟩, ?_⟩ he).2
  · rintro τ a τ' ⟨r1, r2⟩ hs
    exact ⟨r1.step hs, set_step r2 r1.inv.1 r1.world hs⟩
  · constructor <;> simp [create, Life.done]

end LP.SysInfo
