import Verif.Prop.Host
import Verif.Prop.BusQueue
/-!
# The order of the shutdown (C76, C78, C98)
-/
namespace LP.Bus

theorem exec_then {σ τ σ' : St} {as cs : List Act} (h : exec σ as = some τ) (h' : exec τ cs = some σ') :
    exec σ (as ++ cs) = some σ' := by
  induction as generalizing σ with
  | nil => simp only [exec, Option.some.injEq] at h; subst h; exact h'
  | cons a as ih =>
    simp only [exec, List.cons_append] at h ⊢
    cases hs : step σ a with
    | none => simp [hs] at h
    | some ρ => simp only [hs] at h ⊢; exact ih h

/-- The events `Detach` consists of. -/
def Cuts (a : Act) : Prop := (∃ c, a = .stop c) ∨ ∃ c, a = .detachOne c

theorem detach_events (n : Nat) : ∀ (σ : St) (b : Nat) (w' : World), b < σ.w.nb →
    (∀ x k c, (k, c) ∈ (σ.w.bus x).children → c < σ.w.nb) → detach n b σ.w = .ok () w' →
    (∃ ds, exec σ ds = some { σ with w := w' } ∧ ∀ a ∈ ds, Cuts a) ∧ w'.nb = σ.w.nb ∧
      ∀ x, (w'.bus x).children = (σ.w.bus x).children := by
  induction n with
  | zero => intro σ b w' _ _ h; cases h
  | succ n ih =>
    intro σ b w' hb hk h
    have loop : ∀ (es : Dict Nat) (σ : St) (w' : World), (∀ e ∈ es, e.2 < σ.w.nb) →
        (∀ x k c, (k, c) ∈ (σ.w.bus x).children → c < σ.w.nb) →
        M.each (fun (e : Str × Nat) => fun w => detach n e.2 (stop e.2 w)) es σ.w = .ok () w' →
        (∃ ds, exec σ ds = some { σ with w := w' } ∧ ∀ a ∈ ds, Cuts a) ∧ w'.nb = σ.w.nb ∧
          ∀ x, (w'.bus x).children = (σ.w.bus x).children := by
      intro es
      induction es with
      | nil =>
        intro σ w' _ _ h
        cases h
        exact ⟨⟨[], rfl, by simp⟩, rfl, fun _ => rfl⟩
      | cons e es ihe =>
        intro σ w' hes hk h
        have he := hes e (List.mem_cons_self ..)
        have sc : ∀ x, ((stop e.2 σ.w).bus x).children = (σ.w.bus x).children := by
          intro x; unfold stop World.setBus; dsimp only; split <;> simp_all
        simp only [M.each, M.bind] at h
        cases hd : detach n e.2 (stop e.2 σ.w) with
        | ok u w1 =>
          rw [hd] at h
          obtain ⟨⟨d1, e1, c1⟩, n1, k1⟩ := ih { σ with w := stop e.2 σ.w } e.2 w1 he
            (fun x k c hx => by rw [sc] at hx; exact hk x k c hx) hd
          have n1' : w1.nb = σ.w.nb := n1
          have k1' : ∀ x, (w1.bus x).children = (σ.w.bus x).children := fun x => (k1 x).trans (sc x)
          obtain ⟨⟨d2, e2, c2⟩, n2, k2⟩ := ihe { σ with w := w1 } w'
            (fun e' h' => by show e'.2 < w1.nb; rw [n1']; exact hes e' (List.mem_cons_of_mem _ h'))
            (fun x k c hx => by
              show c < w1.nb
              rw [n1']; exact hk x k c (by rw [← k1' x]; exact hx)) h
          refine ⟨⟨.stop e.2 :: (d1 ++ d2), ?_, ?_⟩, n2.trans n1', fun x => (k2 x).trans (k1' x)⟩
          · simp only [exec, step, he, if_true]
            exact exec_then e1 e2
          · intro a ha
            rcases List.mem_cons.1 ha with rfl | ha
            · exact .inl ⟨_, rfl⟩
            · rcases List.mem_append.1 ha with ha | ha
              · exact c1 a ha
              · exact c2 a ha
        | throw e s => rw [hd] at h; cases h
        | ub => rw [hd] at h; cases h
        | fuel => rw [hd] at h; cases h
    have sc : ∀ x, ((detachOne b σ.w).bus x).children = (σ.w.bus x).children := by
      intro x; unfold detachOne World.setBus; dsimp only; split <;> simp_all
    simp only [detach] at h
    obtain ⟨⟨ds, e1, c1⟩, n1, k1⟩ := loop _ { σ with w := detachOne b σ.w } w'
      (fun e he => by rw [sc] at he; exact hk b e.1 e.2 he)
      (fun x k c hx => by rw [sc] at hx; exact hk x k c hx) h
    refine ⟨⟨.detachOne b :: ds, ?_, ?_⟩, n1, fun x => (k1 x).trans (sc x)⟩
    · simp only [exec, step, hb, if_true]; exact e1
    · intro a ha
      rcases List.mem_cons.1 ha with rfl | ha
      · exact .inr ⟨_, rfl⟩
      · exact c1 a ha

/-- Every bus hangs below the root. -/
theorem below_root {σ : St} (h : Reachable σ) : ∀ c, c < σ.w.nb → Anc σ.w 0 c := by
  obtain ⟨name, σ₀, as, h0, he⟩ := h
  have hr0 : Reachable σ₀ := ⟨name, σ₀, [], h0, rfl⟩
  have hb : ∀ c, c < σ₀.w.nb → Anc σ₀.w 0 c := by
    intro c hc
    unfold initial newRoot at h0
    split at h0
    · cases h0
    · rename_i w hw
      cases h0
      split at hw
      · cases hw
      · cases hw
        have : c = 0 := by simpa using hc
        subst this; exact .refl 0
  refine exec_induct (P := fun σ => ∀ c, c < σ.w.nb → Anc σ.w 0 c) (Q := fun _ => True) ?_ hr0.inv (fun _ _ => trivial) hb he
  intro σ a σ' hi _ hp hs c hc
  by_cases hr : ∃ c, a = .run c
  · obtain ⟨x, rfl⟩ := hr
    have hw := run_bus hs
    exact (anc_congr (fun x y => by unfold Child; rw [hw.1]) 0 c).2 (hp c (by rw [← hw.2]; exact hc))
  · have hx := step_external hi.wok (fun c e => hr ⟨c, e⟩) hs
    by_cases hlt : c < σ.w.nb
    · exact (hx.grows.2.2.1 0 c hlt).2 (hp c hlt)
    · obtain ⟨b0, hb0, _, _, ha⟩ := hx.fresh c (by omega) hc
      exact (ha 0).2 (.inr (hp b0 hb0))

end LP.Bus

namespace LP.Host
open Plugin (Out Op performAll perform emptyManager DistinctIds templateFiles)

/-- No message comes from bus `c` and no bus can be created below it. -/
def Silent (σ : Bus.St) (c : Nat) : Prop :=
  (∀ m τ, Bus.step σ (.publish c m) = some τ → τ = σ) ∧
  (∀ p d τ, (σ.w.pub p).bus = c → Bus.step σ (.pubPublish p d) = some τ → τ = σ) ∧
  (∀ name, ∃ e, Bus.createChildBus c name σ.w = .throw e σ.w)

/-- `Teardown` detaches the whole hierarchy first and unloads the plugins then: when `Stop` and `Deinitialize` of the
instances run, every bus is already silent, and stays so whatever is done to the hierarchy by them and by other threads
from then on. `σ` is the hierarchy with the state of the bus thread when `Teardown` begins. -/
theorem C98_plugins_unload_silent {st st' : St} {σ : Bus.St} (hr : Bus.Reachable σ) (hw : σ.w = st.mgr.world)
    (hb : st.rootBus = some 0) (h : teardown st = .ok () st') :
    ∃ σ₁, Plugin.unloadTemplates { st.mgr with world := σ₁.w } = .ok () st'.mgr ∧
      (∃ ds, Bus.exec σ ds = some σ₁) ∧
      ∀ as τ, Bus.exec σ₁ as = some τ → ∀ c, c < τ.w.nb → Silent τ c := by
  unfold teardown at h
  rw [hb] at h
  simp only at h
  cases hd : Bus.detach st.mgr.world.nb 0 st.mgr.world with
  | ok u w1 =>
    rw [hd] at h
    simp only [onMgr] at h
    cases hu : Plugin.unloadTemplates { st.mgr with world := w1 } with
    | ok u m1 =>
      rw [hu] at h
      cases h
      rw [← hw] at hd
      have hroot := hr.inv.wok.root
      obtain ⟨⟨ds, h1, _⟩, hn, hk⟩ := Bus.detach_events _ σ 0 w1 hroot
        (fun x k c hx => (hr.inv.wok.child x c (List.mem_map.2 ⟨(k, c), hx, rfl⟩)).2) hd
      have hr1 : Bus.Reachable { σ with w := w1 } := by
        obtain ⟨name, σ₀, as, i0, i1⟩ := hr
        exact ⟨name, σ₀, as ++ ds, i0, Bus.exec_then i1 h1⟩
      refine ⟨{ σ with w := w1 }, hu, ⟨ds, h1⟩, ?_⟩
      have hdet : ∀ c, Bus.Anc w1 0 c → (w1.bus c).attached = false := by
        obtain ⟨w2, h2, h3, _⟩ := Bus.C32_detach_covers_subtree σ.w ⟨σ, hr, rfl⟩ 0 hroot σ.w.nb (Nat.le_refl _)
        rw [h2] at hd
        cases hd
        intro c hc
        have hc' := (Bus.anc_congr (w := σ.w) (w' := w1) (fun x y => by unfold Bus.Child; rw [hk]) 0 c).1 hc
        cases ha : (w1.bus c).attached with
        | false => rfl
        | true => exact absurd hc' ((h3 c).1 ha).2
      intro as τ he c hc
      have hrτ : Bus.Reachable τ := by
        obtain ⟨name, σ₀, as', i0, i1⟩ := hr1
        exact ⟨name, σ₀, as' ++ as, i0, Bus.exec_then i1 he⟩
      have hanc := Bus.below_root hrτ c hc
      have hb1 : (0 : Nat) < w1.nb := by rw [hn]; exact hroot
      obtain ⟨p1, p2⟩ := Bus.C32_detached_publishes_nothing { σ with w := w1 } τ as 0 hr1 hb1 hdet he c hanc
      refine ⟨p1, p2, ?_⟩
      have hx : Bus.DetachedBelow 0 τ := Bus.exec_induct (P := Bus.DetachedBelow 0) (Q := fun _ => True)
        (fun σ a σ' hi _ hp hs => Bus.detached_step hi hp hs) hr1.inv (fun _ _ => trivial) ⟨hb1, hdet⟩ he
      intro name
      unfold Bus.createChildBus
      split
      · exact ⟨_, rfl⟩
      · split
        · exact ⟨_, rfl⟩
        · rw [hx.2 c hanc]; exact ⟨_, rfl⟩
    | throw e m1 => rw [hu] at h; cases h
    | ub => rw [hu] at h; cases h
    | terminate => rw [hu] at h; cases h
  | throw e w => rw [hd] at h; cases h
  | ub => rw [hd] at h; cases h
  | fuel => rw [hd] at h; cases h

/-- `Start` of a host that returned never returns again, with whatever plugins, files and bus activity. -/
theorem C76_start_returns_once {env env' : Plugin.Env} {tok tok' : Str → Option Json} {early early' : Bool}
    {run run' : Nat → St → Plugin.Out St Unit} {files files' : List Str} {st st' : St}
    (h : start env tok early run files st = .ok () st') (st'' : St) :
    start env' tok' early' run' files' st' ≠ .ok () st'' := by
  have hn : st'.rootBus = none := by
    unfold start at h
    split at h
    · split at h
      · split at h
        · cases h
        · split at h
          · split at h
            · rename_i st4 ht
              cases h
              unfold teardown at ht
              split at ht <;> try contradiction
              split at ht <;> try contradiction
              unfold onMgr at ht
              split at ht <;> cases ht
              rfl
            · rename_i hx; exact absurd h (hx _ _)
          · rename_i hx; exact absurd h (hx _ _)
      · rename_i hx; exact absurd h (hx _ _)
    · rename_i hx; exact absurd h (hx _ _)
  intro h2
  unfold start at h2
  cases h3 : setup env' { st' with runState := .running } with
  | ok u st1 =>
    rw [h3] at h2
    simp only at h2
    cases h4 : readFiles tok' early' files' st1 with
    | ok u st2 =>
      rw [h4] at h2
      have e1 := (setup_ends (.inl ⟨_, h3⟩)).1
      have e2 := (readFiles_uses (env := env') (.inl ⟨_, h4⟩)).1
      have : st2.rootBus = none := by rw [e2, e1]; exact hn
      simp only [this] at h2
      cases h2
    | throw e s => rw [h4] at h2; cases h2
    | ub => rw [h4] at h2; cases h2
    | terminate => rw [h4] at h2; cases h2
  | throw e s => rw [h3] at h2; cases h2
  | ub => rw [h3] at h2; cases h2
  | terminate => rw [h3] at h2; cases h2

/-! ### The hypotheses are met -/

/-- A host with one plugin instance on a given hierarchy. -/
def oneInstance (w : Bus.World) : St :=
  create ⟨[], some 0, [(bs "A", (1, ⟨bs "A", none, [(bs "A0", some ⟨none, none⟩)]⟩))], w, []⟩

/-- A bus that ran and was stopped, with the bus of a plugin and a publisher on it. -/
example : ∃ σ st', Bus.Reachable σ ∧ teardown (oneInstance σ.w) = .ok () st' ∧
    st'.mgr.log = [.stopped (bs "A0"), .deinitialized (bs "A0"), .closed 1] ∧ 1 < σ.w.nb ∧ (σ.w.bus 1).attached = true := by
  obtain ⟨σ, _, h, e⟩ := Bus.play_obs (bs "root") [.createChild 0 (bs "A0"), .createPub 1 (bs "t"), .start, .stop 0]
    (fun σ => (seen (teardown (oneInstance σ.w)), σ.w.nb, (σ.w.bus 1).attached))
    (some ([.stopped (bs "A0"), .deinitialized (bs "A0"), .closed 1], true), 2, true) (by decide +kernel)
  simp only [Prod.mk.injEq] at e
  obtain ⟨e1, e2, e3⟩ := e
  cases ht : teardown (oneInstance σ.w) with
  | ok u st' =>
    rw [ht] at e1
    simp only [seen, Option.some.injEq, Prod.mk.injEq] at e1
    exact ⟨σ, st', h, ht, e1.1, by omega, e3⟩
  | throw e s => rw [ht] at e1; cases e1
  | ub => rw [ht] at e1; cases e1
  | terminate => rw [ht] at e1; cases e1

/-- A `Start` that returns is `hostRun`. -/
example : (match start hostEnv (fun _ => some hostConfig) false (fun _ s => .ok () s) [bs "c"]
    (create (emptyManager [bs "/p"] none Plugin.freshWorld)) with | .ok _ _ => true | _ => false) = true := by decide +kernel

end LP.Host
