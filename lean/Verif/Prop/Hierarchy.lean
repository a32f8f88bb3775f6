import Verif.Prop.Instances
import Verif.Prop.Shutdown
import Verif.Prop.BusTree
/-!
# The bus hierarchy of a host (C113)
-/
namespace LP.Bus

/-- Every bus takes messages and passes them on. -/
def AllOn (σ : St) : Prop := ∀ b, b < σ.w.nb → (σ.w.bus b).attached = true ∧ (σ.w.bus b).running = true

theorem allOn_step {σ σ' : St} {a : Act} (h : AllOn σ) (ha : ¬ Cuts a) (hs : step σ a = some σ') : AllOn σ' := by
  cases a with
  | run c =>
    have hw := run_bus hs
    intro b hb
    rw [hw.2] at hb
    rw [hw.1]; exact h b hb
  | stop b => exact absurd (.inl ⟨b, rfl⟩) ha
  | detachOne b => exact absurd (.inr ⟨b, rfl⟩) ha
  | start =>
    simp only [step] at hs
    split at hs <;> cases hs
    intro b hb
    have := h b hb
    simp only [setRunning, World.setBus]
    split
    · subst_vars; exact ⟨this.1, rfl⟩
    · exact this
  | startChild c =>
    simp only [step] at hs
    split at hs <;> cases hs
    intro b hb
    have := h b hb
    simp only [setRunning, World.setBus]
    split
    · subst_vars; exact ⟨this.1, rfl⟩
    · exact this
  | createChild c name =>
    simp only [step] at hs
    split at hs <;> cases hs
    rename_i hc
    intro b hb
    cases hx : createChildBus c name σ.w with
    | ok d w =>
      obtain ⟨_, _, _, e⟩ := Plugin.createChildBus_ok hx
      rw [hx] at hb
      simp only [outcome] at hb ⊢
      rw [e] at hb ⊢
      simp only [World.setBus] at hb ⊢
      by_cases h1 : b = c
      · subst h1; simpa using h b hc.1
      · by_cases h2 : b = σ.w.nb
        · subst h2
          rw [if_neg h1, if_pos rfl]
          exact ⟨rfl, rfl⟩
        · simp only [if_neg h1, if_neg h2]; exact h b (by omega)
    | throw e w =>
      have : w = σ.w := by
        unfold createChildBus at hx
        split at hx
        · cases hx; rfl
        · split at hx
          · cases hx; rfl
          · split at hx <;> cases hx; rfl
      rw [hx] at hb
      simp only [outcome, this] at hb ⊢
      exact h b hb
    | ub => rw [hx] at hb; exact h b hb
    | fuel => rw [hx] at hb; exact h b hb
  | publish c m => simp only [step] at hs; split at hs <;> cases hs; exact h
  | pubPublish p d => simp only [step] at hs; split at hs <;> cases hs; exact h
  | push i => simp only [step] at hs; split at hs <;> cases hs; exact h
  | notify => simp only [step] at hs; split at hs <;> cases hs; exact h
  | createSub c t cb =>
    simp only [step] at hs
    split at hs <;> cases hs
    intro b hb
    have := h b hb
    simp only [createSubscriber, outcome, World.setBus, World.setSub]
    split
    · subst_vars; exact this
    · exact this
  | createPub c t =>
    simp only [step] at hs
    split at hs <;> cases hs
    intro b hb
    have := h b hb
    simp only [createPublisher, outcome, World.setBus, World.setPub]
    split
    · subst_vars; exact this
    · exact this
  | deleteSub c s =>
    simp only [step] at hs
    split at hs <;> cases hs
    intro b hb
    have := h b hb
    simp only [deleteSubscriber, outcome, World.setBus, World.setSub]
    split
    · subst_vars; exact this
    · exact this
  | deletePub c p =>
    simp only [step] at hs
    split at hs <;> cases hs
    intro b hb
    have := h b hb
    simp only [deletePublisher, outcome, World.setBus, World.setPub]
    split
    · subst_vars; exact this
    · exact this
  | setCb s cb => simp only [step] at hs; split at hs <;> cases hs; exact h

theorem allOn_exec {σ σ' : St} {as : List Act} (hi : Inv σ) (h : AllOn σ) (ha : ∀ a ∈ as, ¬ Cuts a) (he : exec σ as = some σ') : AllOn σ' :=
  exec_induct (P := AllOn) (Q := fun a => ¬ Cuts a) (fun _ _ _ _ hq hp hs => allOn_step hp hq hs) hi ha h he

/-- The event does not silence subscriber `s`. -/
def Spares (s : Nat) (a : Act) : Prop := (∀ b, a ≠ .deleteSub b s) ∧ a ≠ .setCb s none

/-- `s` is in the list of its bus and has a callback. -/
def Listening (σ : St) (s : Nat) : Prop :=
  s < σ.w.ns ∧ s ∈ (σ.w.bus (σ.w.sub s).home).subs ∧ (σ.w.sub s).cb ≠ none

theorem listening_step {σ σ' : St} {a : Act} {s : Nat} (hi : Inv σ) (h : Listening σ s) (ha : Spares s a) (hs : step σ a = some σ') :
    Listening σ' s := by
  obtain ⟨h1, h2, h3⟩ := h
  have hh := hi.wok.home s h1
  cases a with
  | run c =>
    have hw := run_world hs
    unfold Listening
    rw [hw.1, hw.2.2.1, hw.2.2.2.1]
    exact ⟨h1, h2, h3⟩
  | createChild b name =>
    simp only [step] at hs
    split at hs <;> try contradiction
    cases hs
    rcases createChildBus_cases σ.w b name with he | ⟨_, hf, _, he⟩
    · simp only [he]; exact ⟨h1, h2, h3⟩
    · simp only [he, outcome, World.setBus, Listening]
      refine ⟨h1, ?_, h3⟩
      split
      · subst_vars; exact h2
      · rw [if_neg (by omega)]; exact h2
  | start =>
    simp only [step] at hs
    split at hs <;> cases hs
    refine ⟨h1, ?_, h3⟩
    simp only [setRunning, World.setBus]
    split
    · rename_i e; rw [e] at h2; exact h2
    · exact h2
  | startChild c =>
    simp only [step] at hs
    split at hs <;> cases hs
    refine ⟨h1, ?_, h3⟩
    simp only [setRunning, World.setBus]
    split
    · rename_i e; rw [e] at h2; exact h2
    · exact h2
  | stop c =>
    simp only [step] at hs
    split at hs <;> cases hs
    refine ⟨h1, ?_, h3⟩
    simp only [Bus.stop, World.setBus]
    split
    · rename_i e; rw [e] at h2; exact h2
    · exact h2
  | detachOne c =>
    simp only [step] at hs
    split at hs <;> cases hs
    refine ⟨h1, ?_, h3⟩
    simp only [Bus.detachOne, World.setBus]
    split
    · rename_i e; rw [e] at h2; exact h2
    · exact h2
  | publish c m => simp only [step] at hs; split at hs <;> cases hs; exact ⟨h1, h2, h3⟩
  | pubPublish p d => simp only [step] at hs; split at hs <;> cases hs; exact ⟨h1, h2, h3⟩
  | push i => simp only [step] at hs; split at hs <;> cases hs; exact ⟨h1, h2, h3⟩
  | notify => simp only [step] at hs; split at hs <;> cases hs; exact ⟨h1, h2, h3⟩
  | createSub c t cb =>
    simp only [step] at hs
    split at hs <;> cases hs
    have hne : ¬ s = σ.w.ns := by omega
    simp only [createSubscriber, outcome, World.setBus, World.setSub, Listening, if_neg hne]
    refine ⟨by omega, ?_, h3⟩
    split
    · rename_i e; rw [e] at h2; exact List.mem_append_left _ h2
    · exact h2
  | createPub c t =>
    simp only [step] at hs
    split at hs <;> cases hs
    simp only [createPublisher, outcome, World.setBus, World.setPub, Listening]
    refine ⟨h1, ?_, h3⟩
    split
    · rename_i e; rw [e] at h2; exact h2
    · exact h2
  | deleteSub c x =>
    simp only [step] at hs
    split at hs <;> cases hs
    have hne : s ≠ x := fun e => ha.1 c (by rw [e])
    simp only [deleteSubscriber, outcome, World.setBus, World.setSub, Listening]
    rw [if_neg hne]
    refine ⟨h1, ?_, h3⟩
    split
    · rename_i e; rw [e] at h2; exact List.mem_filter.2 ⟨h2, by simpa using hne⟩
    · exact h2
  | deletePub c p =>
    simp only [step] at hs
    split at hs <;> cases hs
    simp only [deletePublisher, outcome, World.setBus, World.setPub, Listening]
    refine ⟨h1, ?_, h3⟩
    split
    · rename_i e; rw [e] at h2; exact h2
    · exact h2
  | setCb x cb =>
    simp only [step] at hs
    split at hs <;> cases hs
    simp only [setCallback, World.setSub, Listening]
    by_cases e : s = x
    · subst e
      simp only [if_true]
      exact ⟨h1, h2, fun e => ha.2 (by rw [e])⟩
    · simp only [if_neg e]; exact ⟨h1, h2, h3⟩

theorem Listening.live {σ : St} {s : Nat} (hr : Reachable σ) (ho : AllOn σ) (h : Listening σ s) : Live σ.w s := by
  refine ⟨h.2.1, h.2.2, ?_⟩
  have hw := hr.inv.wok
  have : ∀ {a c}, Anc σ.w a c → a < σ.w.nb → RunPath σ.w a c := by
    intro a c hac ha
    induction hac with
    | refl => exact .refl (ho _ ha).2
    | step _ hc ih => exact .step ih hc (ho _ (hc.lt hw).2).2
  exact this (below_root hr _ (hw.home s h.1)) hw.root

theorem live_throughout {s : Nat} : ∀ (as : List Act) {σ : St}, Reachable σ → AllOn σ → Listening σ s →
    (∀ a ∈ as, ¬ Cuts a ∧ Spares s a) → Throughout (fun τ => Live τ.w s) σ as := by
  intro as
  induction as with
  | nil => intro σ hr ho hl _; exact hl.live hr ho
  | cons a as ih =>
    intro σ hr ho hl ha
    refine ⟨hl.live hr ho, fun σ' hs => ?_⟩
    have h1 := ha a (by simp)
    exact ih (hr.exec (as := [a]) (by simp [Bus.exec, hs])) (allOn_step ho h1.1 hs) (listening_step hr.inv hl h1.2 hs)
      (fun b hb => ha b (by simp [hb]))

end LP.Bus

namespace LP.Main
open Plugin (Ev Op Template Inst emptyManager templateFiles performAll Manager)
open Host (St setup readFiles)

/-- The hierarchy of a host while it loads templates and reads the configuration, as a state of the bus layer. -/
structure Grown (σ : Bus.St) (m : Manager) : Prop where
  reach : Bus.Reachable σ
  world : σ.w = m.world
  quiet : σ.phase = .off ∧ σ.inflight = [] ∧ σ.published = []
  bus : m.bus = some 0
  on : ∀ b, b < σ.w.nb → (σ.w.bus b).attached = true ∧ (b ≠ 0 → (σ.w.bus b).running = true)
  made : ∀ n, .created n ∈ m.log → (σ.w.bus 0).children.has n = true

theorem load_world {env : Plugin.Env} {path : Str} {m m' : Manager} {r : Bool}
    (h : Plugin.loadTemplate env path m = .ok r m') : m'.world = m.world := by
  unfold Plugin.loadTemplate Plugin.useLibrary at h
  split at h
  · split at h
    · cases h; rfl
    · split at h
      · cases h; rfl
      · cases h
      · split at h
        · cases h; rfl
        · split at h
          · cases h; rfl
          · simp only [Plugin.storeTemplate] at h
            split at h
            · cases h; rfl
            · split at h <;> cases h; rfl
  · cases h; rfl

theorem loadAll_world {env : Plugin.Env} {ps : List Str} {m m' : Manager} (h : Plugin.loadAll env ps m = .ok () m') :
    m'.world = m.world := by
  induction ps generalizing m with
  | nil => cases h; rfl
  | cons p ps ih =>
    rw [Plugin.loadAll] at h
    split at h <;> try contradiction
    rename_i h1
    exact (ih h).trans (load_world h1)

theorem instantiate_world {early : Bool} {b : Nat} {s s' : Plugin.TS}
    (h : (∃ a, Plugin.instantiate early (some b) s = .ok a s') ∨ ∃ e, Plugin.instantiate early (some b) s = .throw e s') :
    (s'.world = s.world ∧ s'.log = s.log) ∨
      ∃ name c, Bus.createChildBus b name s.world = .ok c s'.world ∧ (s'.log = s.log ∨ s'.log = s.log ++ [.created name]) := by
  unfold Plugin.instantiate at h
  simp only at h
  split at h
  · rcases h with ⟨_, h⟩ | ⟨_, h⟩ <;> cases h
  · rename_i index hi
    cases hc : Bus.createChildBus b (s.tmpl.name index) s.world with
    | throw e w =>
      rw [hc] at h
      have hw : w = s.world := by
        unfold Bus.createChildBus at hc
        split at hc
        · cases hc; rfl
        · split at hc
          · cases hc; rfl
          · split at hc <;> cases hc; rfl
      rcases h with ⟨_, h⟩ | ⟨_, h⟩ <;> cases h
      exact .inl ⟨hw, rfl⟩
    | ub => rw [hc] at h; rcases h with ⟨_, h⟩ | ⟨_, h⟩ <;> cases h
    | fuel => rw [hc] at h; rcases h with ⟨_, h⟩ | ⟨_, h⟩ <;> cases h
    | ok c w =>
      rw [hc] at h
      right
      simp only at h
      split at h
      · rcases h with ⟨_, h⟩ | ⟨_, h⟩ <;> cases h
        split <;> exact ⟨_, c, hc, .inl rfl⟩
      · split at h
        · rcases h with ⟨_, h⟩ | ⟨_, h⟩ <;> cases h
          split <;> exact ⟨_, c, hc, .inl rfl⟩
        · rcases h with ⟨_, h⟩ | ⟨_, h⟩ <;> cases h
          exact ⟨_, c, hc, .inl rfl⟩
        · rcases h with ⟨_, h⟩ | ⟨_, h⟩ <;> cases h
          exact ⟨_, c, hc, .inr rfl⟩

theorem grown_create {σ : Bus.St} {m : Manager} (h : Grown σ m) {name : Str} {c : Nat} {w : Bus.World} {ts : Dict (Nat × Template)}
    {log : List Ev} (hc : Bus.createChildBus 0 name m.world = .ok c w) (hl : log = m.log ∨ log = m.log ++ [.created name]) :
    ∃ σ', Grown σ' { m with templates := ts, world := w, log := log } := by
  rw [← h.world] at hc
  have hroot := h.reach.inv.wok.root
  have hs : Bus.step σ (.createChild 0 name) = some { σ with w := w } := by
    simp [Bus.step, hroot, h.quiet.1, Bus.holdsKids, hc, Bus.outcome]
  obtain ⟨h1, h2, h3, h4⟩ := Plugin.createChildBus_ok hc
  refine ⟨{ σ with w := w }, h.reach.exec (as := [.createChild 0 name]) (by simp [Bus.exec, hs]), rfl, h.quiet, h.bus, ?_, ?_⟩
  · intro b hb
    have e : w.nb = σ.w.nb + 1 := by rw [h4]; rfl
    simp only at hb ⊢
    rw [h4]
    simp only [Bus.World.setBus]
    by_cases hb0 : b = 0
    · subst hb0
      exact ⟨(h.on 0 hroot).1, fun k => absurd rfl k⟩
    · rw [if_neg hb0]
      split
      · exact ⟨rfl, fun _ => rfl⟩
      · exact h.on b (by omega)
  · intro n hn
    simp only at hn ⊢
    have grow : (σ.w.bus 0).children.has n = true ∨ n = name → (w.bus 0).children.has n = true := by
      intro k
      rw [h4]
      simp only [Bus.World.setBus, if_true, Dict.has, Dict.find_insert]
      by_cases e : name = n
      · rw [if_pos e]; rfl
      · rw [if_neg e]
        rcases k with k | k
        · exact k
        · exact absurd k.symm e
    rcases hl with rfl | rfl
    · exact grow (.inl (h.made n hn))
    · rcases List.mem_append.1 hn with k | k
      · exact grow (.inl (h.made n k))
      · simp at k; exact grow (.inr k)

theorem grown_instantiate {early : Bool} {id : Str} {σ : Bus.St} {m m' : Manager} (hg : Grown σ m)
    (h : (∃ a, Plugin.instantiateTemplate early id none m = .ok a m') ∨
      ∃ e, Plugin.instantiateTemplate early id none m = .throw e m') : ∃ σ', Grown σ' m' := by
  unfold Plugin.instantiateTemplate at h
  simp only at h
  cases hf : m.templates.find id with
  | none =>
    rw [hf] at h
    rcases h with ⟨_, h⟩ | ⟨_, h⟩ <;> cases h; exact ⟨σ, hg⟩
  | some v =>
    obtain ⟨x, t⟩ := v
    rw [hf, hg.bus] at h
    have key : ∀ s', ((∃ a, Plugin.instantiate early (some 0) ⟨t, m.world, m.log⟩ = .ok a s') ∨
        ∃ e, Plugin.instantiate early (some 0) ⟨t, m.world, m.log⟩ = .throw e s') →
        ∃ σ', Grown σ' { m with templates := m.templates.insert id (x, s'.tmpl), world := s'.world, log := s'.log } := by
      intro s' hs
      rcases instantiate_world hs with ⟨h1, h2⟩ | ⟨name, c, h1, h2⟩
      · simp only at h1 h2
        exact ⟨σ, hg.reach, by simpa only [h1] using hg.world, hg.quiet, hg.bus, hg.on, fun n hn => hg.made n (by simpa only [h2] using hn)⟩
      · exact grown_create hg h1 h2
    cases hi : Plugin.instantiate early (some 0) ⟨t, m.world, m.log⟩ with
    | ok a s' =>
      obtain ⟨name, i⟩ := a
      simp only [hi] at h
      rcases h with ⟨_, h⟩ | ⟨_, h⟩ <;> cases h
      have := key s' (.inl ⟨_, hi⟩)
      rw [hg.bus] at this
      exact this
    | throw e s' =>
      simp only [hi] at h
      rcases h with ⟨_, h⟩ | ⟨_, h⟩ <;> cases h
      have := key s' (.inr ⟨_, hi⟩)
      rw [hg.bus] at this
      exact this
    | ub => simp only [hi] at h; rcases h with ⟨_, h⟩ | ⟨_, h⟩ <;> cases h
    | terminate => simp only [hi] at h; rcases h with ⟨_, h⟩ | ⟨_, h⟩ <;> cases h

theorem grown_ops {env : Plugin.Env} {ops : List Op} {σ : Bus.St} {m m' : Manager} (hg : Grown σ m)
    (ho : ∀ op ∈ ops, ∃ early id, op = Op.instantiate early id none) (h : performAll env ops m = some m') : ∃ σ', Grown σ' m' := by
  induction ops generalizing σ m with
  | nil => cases h; exact ⟨σ, hg⟩
  | cons op ops ih =>
    obtain ⟨early, id, rfl⟩ := ho op List.mem_cons_self
    simp only [performAll, Plugin.perform] at h
    cases hi : Plugin.instantiateTemplate early id none m with
    | ok a m1 =>
      rw [hi] at h
      obtain ⟨σ1, g1⟩ := grown_instantiate hg (.inl ⟨_, hi⟩)
      exact ih g1 (fun op hop => ho op (List.mem_cons_of_mem _ hop)) h
    | throw e m1 =>
      rw [hi] at h
      obtain ⟨σ1, g1⟩ := grown_instantiate hg (.inr ⟨_, hi⟩)
      exact ih g1 (fun op hop => ho op (List.mem_cons_of_mem _ hop)) h
    | ub => rw [hi] at h; cases h
    | terminate => rw [hi] at h; cases h

theorem early_all {env : Plugin.Env} {ps : List Str} {m m' : Manager} (hq : Quiet m.log) (hu : Unused m) (hb : Early m)
    (h : Plugin.loadAll env ps m = .ok () m') : Early m' := by
  induction ps generalizing m with
  | nil => cases h; exact hb
  | cons p ps ih =>
    rw [Plugin.loadAll] at h
    split at h <;> try contradiction
    rename_i h1
    obtain ⟨k1, k2⟩ := quiet_load hq hu h1
    exact ih k1 k2 (early_load hu hb h1) h

theorem grown_config {env : Plugin.Env} {tok : Str → Option Json} {early : Bool} {files paths : List Str} {name : Str}
    {w : Bus.World} {st1 st2 : St} (hw : Bus.newRoot name = .ok w)
    (h1 : setup env { Host.create (emptyManager paths none w) with runState := .running } = .ok () st1)
    (h2 : Host.Out.Ends (readFiles tok early files st1) st2) : ∃ σ, Grown σ st2.mgr := by
  obtain ⟨_, _, ops, u3, u4⟩ := Host.readFiles_uses (env := env) h2
  have hl : Plugin.loadAll env (templateFiles env paths) { searchPaths := paths, bus := some 0, templates := [], world := w, log := [] } =
      .ok () st1.mgr := by
    unfold setup Host.onMgr at h1
    simp only [Host.create, Plugin.loadTemplates, Plugin.setBus, emptyManager] at h1
    split at h1 <;> cases h1
    assumption
  have e := loadAll_world hl
  have hk := early_all (env := env) (fun name => by simp) (fun i h t hf => by cases hf) ⟨Dict.sorted_nil, fun _ => rfl, rfl⟩ hl
  have hi : Bus.initial name = some ⟨w, .off, [], 0, [], [], []⟩ := by simp [Bus.initial, hw]
  refine grown_ops (σ := ⟨w, .off, [], 0, [], [], []⟩) ⟨⟨name, _, [], hi, rfl⟩, e.symm, ⟨rfl, rfl, rfl⟩, hk.bus, ?_, ?_⟩ u3 u4
  · intro b hb
    unfold Bus.newRoot at hw
    split at hw <;> cases hw
    have : b = 0 := by simpa using hb
    subst this
    exact ⟨rfl, fun k => absurd rfl k⟩
  · intro n hn
    have := hk.none n
    rw [List.count_eq_zero] at this
    exact absurd hn this

/-- While the host reads its configuration, whatever the libraries and files are, the hierarchy is one of the bus layer
at rest: only the root is not running yet. The bus of an instance is the child of the root that has its name. -/
theorem C113_hierarchy {env : Plugin.Env} {tok : Str → Option Json} {early : Bool} {files paths : List Str} {name : Str}
    {w : Bus.World} {st1 st2 : St} (hw : Bus.newRoot name = .ok w)
    (h1 : setup env { Host.create (emptyManager paths none w) with runState := .running } = .ok () st1)
    (h2 : Host.Out.Ends (readFiles tok early files st1) st2) :
    ∃ σ, Bus.Reachable σ ∧ σ.w = st2.mgr.world ∧ σ.phase = .off ∧ σ.published = [] ∧
      (∀ b, b < σ.w.nb → (σ.w.bus b).attached = true ∧ (b ≠ 0 → (σ.w.bus b).running = true)) ∧
      ∀ n, .created n ∈ st2.mgr.log → ∃ c, Bus.getChildBus 0 n σ.w = .ok c σ.w ∧ (σ.w.bus c).name = n ∧ c < σ.w.nb := by
  obtain ⟨σ, g⟩ := grown_config hw h1 h2
  refine ⟨σ, g.reach, g.world, g.quiet.1, g.quiet.2.2, g.on, fun n hn => ?_⟩
  have hm := g.made n hn
  unfold Dict.has at hm
  obtain ⟨c, hc⟩ := Option.isSome_iff_exists.1 hm
  have hw := g.reach.inv.wok
  exact ⟨c, by simp [Bus.getChildBus, hc], hw.named 0 n c (Dict.find_some_mem hc), (hw.child 0 c (List.mem_map.2 ⟨(n, c), Dict.find_some_mem hc, rfl⟩)).2⟩

/-- Once the bus of the host runs, and as long as nothing stops or detaches a bus, whatever else all threads do: what an
instance publishes on its bus enters the queue under the name of the instance, and a subscriber on the bus of an instance
gets every matching message published by any instance, once and in order (all of them when the bus is idle). -/
theorem C113_instances_hear_each_other {env : Plugin.Env} {tok : Str → Option Json} {early : Bool} {files paths : List Str}
    {name : Str} {w : Bus.World} {st1 st2 : St} (hw : Bus.newRoot name = .ok w)
    (h1 : setup env { Host.create (emptyManager paths none w) with runState := .running } = .ok () st1)
    (h2 : Host.Out.Ends (readFiles tok early files st1) st2) {n1 n2 : Str} (hn1 : .created n1 ∈ st2.mgr.log)
    (hn2 : .created n2 ∈ st2.mgr.log) :
    ∃ σ c1 c2, σ.w = st2.mgr.world ∧ σ.phase = .off ∧ Bus.getChildBus 0 n1 σ.w = .ok c1 σ.w ∧ Bus.getChildBus 0 n2 σ.w = .ok c2 σ.w ∧
      ∀ as τ, (∀ a ∈ as, ¬ Bus.Cuts a) → Bus.exec σ (.start :: as) = some τ →
        (∀ p d, p < τ.w.np → (τ.w.pub p).bus = c1 → (τ.w.pub p).active = true →
          Bus.step τ (.pubPublish p d) = some { τ with inflight := τ.inflight ++ [⟨n1, (τ.w.pub p).topic, d⟩] }) ∧
        ∀ s, s ∈ (τ.w.bus c2).subs → (τ.w.sub s).cb ≠ none → ∀ as' ρ, (∀ a ∈ as', ¬ Bus.Cuts a ∧ Bus.Spares s a) →
          .run .throwing ∉ as' → Bus.exec τ as' = some ρ →
          let got := (Bus.received s ρ.log).filter (fun i => decide (τ.fates.length ≤ i))
          let wanted := Bus.due (ρ.w.sub s).topic ρ.published τ.fates.length ρ.published.length
          got <+: wanted ∧ (Bus.Idle ρ → got = wanted) := by
  obtain ⟨σ, r, e1, e2, _, on, made⟩ := C113_hierarchy hw h1 h2
  obtain ⟨c1, g1, m1, l1⟩ := made n1 hn1
  obtain ⟨c2, g2, m2, l2⟩ := made n2 hn2
  refine ⟨σ, c1, c2, e1, e2, g1, g2, fun as τ ha he => ?_⟩
  have rτ := r.exec he
  simp only [Bus.exec] at he
  cases hs : Bus.step σ .start with
  | none => rw [hs] at he; cases he
  | some σ1 =>
    rw [hs] at he
    simp only at he
    have r1 : Bus.Reachable σ1 := r.exec (as := [.start]) (by simp only [Bus.exec, hs])
    have on1 : Bus.AllOn σ1 := by
      simp only [Bus.step, e2] at hs
      cases hs
      intro b hb
      simp only [Bus.setRunning, Bus.World.setBus] at hb ⊢
      have := on b hb
      split
      · subst_vars; exact ⟨this.1, rfl⟩
      · rename_i hne; exact ⟨this.1, this.2 hne⟩
    have onτ := Bus.allOn_exec r1.inv on1 ha he
    have nm : c1 < τ.w.nb ∧ (τ.w.bus c1).name = n1 := by
      refine Bus.exec_induct (P := fun ρ => c1 < ρ.w.nb ∧ (ρ.w.bus c1).name = n1) (Q := fun _ => True)
        (fun _ _ _ _ _ hp hs => Bus.name_step hp.1 hp.2 hs) r1.inv (fun _ _ => trivial) (Bus.name_step l1 m1 hs) he
    refine ⟨fun p d hp hb hact => ?_, fun s hs hcb as' ρ ha' ht he' => ?_⟩
    · rw [Bus.C39_message_sent τ p hp hact (onτ _ (by rw [hb]; exact nm.1)).1, hb, nm.2]
    · obtain ⟨k1, k2⟩ := rτ.inv.wok.subsHome c2 s hs
      have hl : Bus.Listening τ s := ⟨k1, by rw [k2]; exact hs, hcb⟩
      have th := Bus.live_throughout as' rτ onτ hl ha'
      exact ⟨Bus.C29_stable_subscriber_receives_in_order τ ρ as' s rτ k1 th ht he',
        Bus.C29_stable_subscriber_receives_all τ ρ as' s rτ k1 th ht he'⟩

/-! ## A case -/

/-- What a host with two instances comes to: the events of setting it up, then whether a subscriber of the second instance
is there and has received the one message of a publisher of the first one when the bus is idle again. -/
def twoInstances : Option (List Ev × Bool) :=
  match Bus.newRoot (bs "root") with
  | .error _ => none
  | .ok w => match setup env1 { Host.create (emptyManager [bs "/p"] none w) with runState := .running } with
    | .ok _ st1 => match readFiles (fun _ => some twice) false [bs "text"] st1 with
      | .ok _ st2 =>
        match Bus.exec ⟨st2.mgr.world, .off, [], 0, [], [], []⟩
          [.start, .createPub 1 (bs "/t"), .createSub 2 (bs "/t") (some 7), .run .go] with
        | some τ => match Bus.exec τ ([.pubPublish 0 (.value (.int 7)), .push 0, .notify] ++ Bus.thread 24) with
          | some ρ => some (st2.mgr.log, (τ.w.bus 2).subs.contains 0 && (τ.w.sub 0).cb.isSome && (τ.w.pub 0).active &&
              decide (ρ.published.map Bus.BMsg.sender = [bs "A0"]) && decide (Bus.received 0 ρ.log = [0]) && ρ.w.queue.isEmpty && (match ρ.phase with | .visit .. => false | p => p.batch.isEmpty))
          | none => none
        | none => none
      | _ => none
    | _ => none

example : twoInstances =
    some ([.opened 1, .created (bs "A0"), .created (bs "A1")], true) := by decide +kernel

end LP.Main
