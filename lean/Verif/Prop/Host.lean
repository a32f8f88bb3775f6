import Verif.Prop.LampPost
import Verif.Prop.PluginManager
/-!
# What `LampPost::Start` leaves behind (C64, C77, C78)
-/
namespace LP.Host
open Plugin (Out Op performAll perform emptyManager DistinctIds templateFiles)

/-- The final state of a call that returned or threw. -/
def Out.Ends {α : Type} (r : Plugin.Out St α) (st' : St) : Prop := (∃ a, r = .ok a st') ∨ ∃ e, r = .throw e st'

/-- Only instantiations were performed on the manager; root bus and run state are untouched. -/
def Uses (env : Plugin.Env) (st st' : St) : Prop :=
  st'.rootBus = st.rootBus ∧ st'.runState = st.runState ∧
    ∃ ops, (∀ op ∈ ops, ∃ early id, op = Op.instantiate early id none) ∧ performAll env ops st.mgr = some st'.mgr

theorem Uses.refl (env : Plugin.Env) (st st' : St) (h1 : st'.rootBus = st.rootBus) (h2 : st'.runState = st.runState) (h3 : st'.mgr = st.mgr) :
    Uses env st st' := ⟨h1, h2, [], by simp, by rw [h3]; rfl⟩

theorem performAll_append {env : Plugin.Env} {a b : List Op} {m m1 m2 : Plugin.Manager} (h1 : performAll env a m = some m1)
    (h2 : performAll env b m1 = some m2) : performAll env (a ++ b) m = some m2 := by
  induction a generalizing m with
  | nil => cases h1; exact h2
  | cons op a ih =>
    rw [performAll, Option.bind_eq_some_iff] at h1
    obtain ⟨m0, h3, h4⟩ := h1
    rw [List.cons_append, performAll, h3]
    exact ih h4

theorem Uses.trans {env : Plugin.Env} {st st1 st2 : St} (h : Uses env st st1) (h' : Uses env st1 st2) : Uses env st st2 := by
  obtain ⟨a1, a2, o1, a3, a4⟩ := h
  obtain ⟨b1, b2, o2, b3, b4⟩ := h'
  refine ⟨b1.trans a1, b2.trans a2, o1 ++ o2, ?_, performAll_append a4 b4⟩
  intro op hop
  rcases List.mem_append.1 hop with h | h
  · exact a3 op h
  · exact b3 op h

theorem onData_uses {α β : Type} {env : Plugin.Env} {m : M DState α} {k : α → St → Plugin.Out St β} {st st' : St}
    (hk : ∀ a d st', Out.Ends (k a { st with data := d }) st' → Uses env { st with data := d } st')
    (h : Out.Ends (onData m k st) st') : Uses env st st' := by
  unfold onData at h
  split at h
  · obtain ⟨h1, h2, h3⟩ := hk _ _ _ h; exact ⟨h1, h2, h3⟩
  · rcases h with ⟨_, h⟩ | ⟨_, h⟩ <;> cases h; exact .refl env _ _ rfl rfl rfl
  · rcases h with ⟨_, h⟩ | ⟨_, h⟩ <;> cases h
  · rcases h with ⟨_, h⟩ | ⟨_, h⟩ <;> cases h

theorem instantiatePlugin_uses {env : Plugin.Env} {early : Bool} {type : Str} {cfg : Nat} {st st' : St}
    (h : Out.Ends (instantiatePlugin early type cfg st) st') : Uses env st st' := by
  have key : ∀ m', perform env (.instantiate early type none) st.mgr = some m' → st'.rootBus = st.rootBus → st'.runState = st.runState →
      st'.mgr = m' → Uses env st st' := by
    intro m' h1 h2 h3 h4
    refine ⟨h2, h3, [.instantiate early type none], ?_, ?_⟩
    · intro op hop; simp only [List.mem_singleton] at hop; exact ⟨_, _, hop⟩
    · simp [performAll, h1, h4]
  unfold instantiatePlugin at h
  cases hi : Plugin.instantiateTemplate early type none st.mgr with
  | ok r m =>
    have hp : perform env (.instantiate early type none) st.mgr = some m := by simp [perform, hi]
    rw [hi] at h
    cases r with
    | none =>
      rcases h with ⟨_, h⟩ | ⟨_, h⟩ <;> cases h
      exact key m hp rfl rfl rfl
    | some p =>
      obtain ⟨name, i⟩ := p
      simp only at h
      cases hx : i.initExn with
      | none => rw [hx] at h; rcases h with ⟨_, h⟩ | ⟨_, h⟩ <;> cases h; exact key m hp rfl rfl rfl
      | some e => rw [hx] at h; rcases h with ⟨_, h⟩ | ⟨_, h⟩ <;> cases h; exact key m hp rfl rfl rfl
  | throw e m =>
    have hp : perform env (.instantiate early type none) st.mgr = some m := by simp [perform, hi]
    rw [hi] at h
    rcases h with ⟨_, h⟩ | ⟨_, h⟩ <;> cases h
    exact key m hp rfl rfl rfl
  | ub => rw [hi] at h; rcases h with ⟨_, h⟩ | ⟨_, h⟩ <;> cases h
  | terminate => rw [hi] at h; rcases h with ⟨_, h⟩ | ⟨_, h⟩ <;> cases h

theorem tryPlugin_uses {env : Plugin.Env} {early : Bool} {type : Str} {cfg : Nat} {st st' : St}
    (h : Out.Ends (tryPlugin early type cfg st) st') : Uses env st st' := by
  unfold tryPlugin at h
  split at h
  · rename_i st1 hi
    have := instantiatePlugin_uses (env := env) (.inr ⟨_, hi⟩)
    rcases h with ⟨_, h⟩ | ⟨_, h⟩ <;> cases h
    exact this.trans (.refl env _ _ rfl rfl rfl)
  · exact instantiatePlugin_uses h

theorem entries_uses {env : Plugin.Env} {early : Bool} {c n i : Nat} {st st' : St} (h : Out.Ends (entries early c n i st) st') :
    Uses env st st' := by
  induction n generalizing i st st' with
  | zero => rcases h with ⟨_, h⟩ | ⟨_, h⟩ <;> cases h; exact .refl env _ _ rfl rfl rfl
  | succ n ih =>
    rw [entries] at h
    refine onData_uses ?_ h
    intro has d st' h
    simp only at h
    split at h
    · refine onData_uses ?_ h
      intro v d st' h
      refine onData_uses ?_ h
      intro _ d st' h
      refine onData_uses ?_ h
      intro _ d st' h
      cases ht : tryPlugin early (textOf v) _ _ with
      | ok _ st5 =>
        rw [ht] at h
        have h1 := (tryPlugin_uses (env := env) (.inl ⟨_, ht⟩)).trans (ih h)
        exact ⟨h1.1, h1.2.1, h1.2.2⟩
      | throw e st5 =>
        rw [ht] at h
        have h1 := tryPlugin_uses (env := env) (.inr ⟨_, ht⟩)
        rcases h with ⟨_, h⟩ | ⟨_, h⟩ <;> cases h
        exact ⟨h1.1, h1.2.1, h1.2.2⟩
      | ub => rw [ht] at h; rcases h with ⟨_, h⟩ | ⟨_, h⟩ <;> cases h
      | terminate => rw [ht] at h; rcases h with ⟨_, h⟩ | ⟨_, h⟩ <;> cases h
    · exact ih h

theorem readConfigurationFile_uses {env : Plugin.Env} {tok : Str → Option Json} {early : Bool} {text : Str} {st st' : St}
    (h : Out.Ends (readConfigurationFile tok early text st) st') : Uses env st st' := by
  unfold readConfigurationFile at h
  refine onData_uses ?_ h
  intro _ d st' h
  have key : Uses env { { st with data := d } with vars := st.vars + 1 } st' := by
    refine onData_uses ?_ h
    intro has d st' h
    simp only at h
    split at h
    · refine onData_uses ?_ h
      intro n d st' h
      exact entries_uses h
    · rcases h with ⟨_, h⟩ | ⟨_, h⟩ <;> cases h; exact .refl env _ _ rfl rfl rfl
  exact ⟨key.1, key.2.1, key.2.2⟩

theorem readFiles_uses {env : Plugin.Env} {tok : Str → Option Json} {early : Bool} {texts : List Str} {st st' : St}
    (h : Out.Ends (readFiles tok early texts st) st') : Uses env st st' := by
  induction texts generalizing st with
  | nil => rcases h with ⟨_, h⟩ | ⟨_, h⟩ <;> cases h; exact .refl env _ _ rfl rfl rfl
  | cons text texts ih =>
    rw [readFiles] at h
    cases hr : readConfigurationFile tok early text st with
    | ok _ st1 => rw [hr] at h; exact (readConfigurationFile_uses (env := env) (.inl ⟨_, hr⟩)).trans (ih h)
    | throw e st1 =>
      rw [hr] at h; rcases h with ⟨_, h⟩ | ⟨_, h⟩ <;> cases h
      exact readConfigurationFile_uses (.inr ⟨_, hr⟩)
    | ub => rw [hr] at h; rcases h with ⟨_, h⟩ | ⟨_, h⟩ <;> cases h
    | terminate => rw [hr] at h; rcases h with ⟨_, h⟩ | ⟨_, h⟩ <;> cases h

/-! ## C64, sequentially -/

theorem setup_ends {env : Plugin.Env} {st st' : St} (h : Out.Ends (setup env st) st') :
    st'.rootBus = st.rootBus ∧ st'.runState = st.runState := by
  unfold setup onMgr at h
  split at h <;> rcases h with ⟨_, h⟩ | ⟨_, h⟩ <;> cases h <;> exact ⟨rfl, rfl⟩

theorem teardown_ends {st st' : St} (h : Out.Ends (teardown st) st') : st'.runState = st.runState := by
  unfold teardown at h
  split at h
  · rcases h with ⟨_, h⟩ | ⟨_, h⟩ <;> cases h
  · split at h
    · unfold onMgr at h
      split at h <;> rcases h with ⟨_, h⟩ | ⟨_, h⟩ <;> cases h <;> rfl
    · rcases h with ⟨_, h⟩ | ⟨_, h⟩ <;> cases h; rfl
    · rcases h with ⟨_, h⟩ | ⟨_, h⟩ <;> cases h
    · rcases h with ⟨_, h⟩ | ⟨_, h⟩ <;> cases h

/-- However `Start` ends, the run state is `Running`, not `Stopped`; nothing that runs on the bus can change it (it is a
private member). -/
theorem C64_after_start {env : Plugin.Env} {tok : Str → Option Json} {early : Bool} {run : Nat → St → Plugin.Out St Unit}
    {files : List Str} {st st' : St} (hrun : ∀ b s s', Out.Ends (run b s) s' → s'.runState = s.runState)
    (h : Out.Ends (start env tok early run files st) st') : st'.runState = .running ∧ isStopped st' = false := by
  suffices hs : st'.runState = .running from ⟨hs, by simp [isStopped, hs]⟩
  unfold start at h
  cases h1 : setup env { st with runState := .running } with
  | ok _ st1 =>
    have e1 := (setup_ends (.inl ⟨_, h1⟩)).2
    rw [h1] at h; simp only at h
    cases h2 : readFiles tok early files st1 with
    | ok _ st2 =>
      have e2 := (readFiles_uses (env := env) (.inl ⟨_, h2⟩)).2.1
      rw [h2] at h; simp only at h
      cases hb : st2.rootBus with
      | none => rw [hb] at h; rcases h with ⟨_, h⟩ | ⟨_, h⟩ <;> cases h
      | some b =>
        rw [hb] at h; simp only at h
        cases h3 : run b st2 with
        | ok _ st3 =>
          have e3 := hrun _ _ _ (.inl ⟨_, h3⟩)
          rw [h3] at h; simp only at h
          cases h4 : teardown st3 with
          | ok _ st4 => rw [h4] at h; rcases h with ⟨_, h⟩ | ⟨_, h⟩ <;> cases h; rfl
          | throw e st4 =>
            have e4 := teardown_ends (.inr ⟨_, h4⟩)
            rw [h4] at h; rcases h with ⟨_, h⟩ | ⟨_, h⟩ <;> cases h
            rw [e4, e3, e2, e1]
          | ub => rw [h4] at h; rcases h with ⟨_, h⟩ | ⟨_, h⟩ <;> cases h
          | terminate => rw [h4] at h; rcases h with ⟨_, h⟩ | ⟨_, h⟩ <;> cases h
        | throw e st3 =>
          have e3 := hrun _ _ _ (.inr ⟨_, h3⟩)
          rw [h3] at h; rcases h with ⟨_, h⟩ | ⟨_, h⟩ <;> cases h
          rw [e3, e2, e1]
        | ub => rw [h3] at h; rcases h with ⟨_, h⟩ | ⟨_, h⟩ <;> cases h
        | terminate => rw [h3] at h; rcases h with ⟨_, h⟩ | ⟨_, h⟩ <;> cases h
    | throw e st2 =>
      have e2 := (readFiles_uses (env := env) (.inr ⟨_, h2⟩)).2.1
      rw [h2] at h; rcases h with ⟨_, h⟩ | ⟨_, h⟩ <;> cases h
      rw [e2, e1]
    | ub => rw [h2] at h; rcases h with ⟨_, h⟩ | ⟨_, h⟩ <;> cases h
    | terminate => rw [h2] at h; rcases h with ⟨_, h⟩ | ⟨_, h⟩ <;> cases h
  | throw e st1 =>
    have e1 := (setup_ends (.inr ⟨_, h1⟩)).2
    rw [h1] at h; rcases h with ⟨_, h⟩ | ⟨_, h⟩ <;> cases h
    rw [e1]
  | ub => rw [h1] at h; rcases h with ⟨_, h⟩ | ⟨_, h⟩ <;> cases h
  | terminate => rw [h1] at h; rcases h with ⟨_, h⟩ | ⟨_, h⟩ <;> cases h

/-! ## C77 -/

theorem performAll_handles {env : Plugin.Env} {ops : List Op} {m m' : Plugin.Manager}
    (hops : ∀ op ∈ ops, ∃ early id, op = Op.instantiate early id none) (h : performAll env ops m = some m') :
    (∀ id, (m'.templates.find id).map Prod.fst = (m.templates.find id).map Prod.fst) ∧
      ∃ l, m'.log = m.log ++ l ∧ Plugin.Neutral l := by
  induction ops generalizing m with
  | nil => cases h; exact ⟨fun _ => rfl, [], by simp, by simp [Plugin.Neutral]⟩
  | cons op ops ih =>
    rw [performAll, Option.bind_eq_some_iff] at h
    obtain ⟨m1, h1, h2⟩ := h
    obtain ⟨early, id, rfl⟩ := hops op (List.mem_cons_self ..)
    obtain ⟨i1, l2, i2, i3⟩ := ih (fun op h => hops op (List.mem_cons_of_mem _ h)) h2
    have he : (∃ r, Plugin.instantiateTemplate early id none m = .ok r m1) ∨ ∃ e, Plugin.instantiateTemplate early id none m = .throw e m1 := by
      simp only [perform] at h1
      split at h1 <;> cases h1
      · rename_i a hx; exact .inl ⟨_, hx⟩
      · rename_i a hx; exact .inr ⟨_, hx⟩
    obtain ⟨l, hl, hn, ht⟩ := Plugin.instantiateTemplate_effect he
    refine ⟨fun id' => ?_, l ++ l2, by rw [i2, hl, List.append_assoc], hn.append i3⟩
    rw [i1 id']
    rcases ht with ht | ⟨x, t, t', hf, ht⟩
    · rw [ht]
    · rw [ht]
      by_cases e : id' = id
      · subst e; simp [Dict.find_insert_self, hf]
      · rw [Dict.find_insert_ne (Ne.symm e)]

/-- An exception while reading the configuration leaves `Start` at once: the root bus never runs and nothing is torn
down, the root bus is still there and every library stays loaded and open. -/
theorem C77_configuration_exception {env : Plugin.Env} {tok : Str → Option Json} {early : Bool}
    {run : Nat → St → Plugin.Out St Unit} {files : List Str} {st st1 st2 : St} {e : Exn}
    (h1 : setup env { st with runState := .running } = .ok () st1) (h2 : readFiles tok early files st1 = .throw e st2) :
    start env tok early run files st = .throw e st2 ∧ st2.rootBus = st.rootBus ∧
      (∀ id, (st2.mgr.templates.find id).map Prod.fst = (st1.mgr.templates.find id).map Prod.fst) ∧
      ∀ x, st2.mgr.log.count (.closed x) = st1.mgr.log.count (.closed x) ∧
        st2.mgr.log.count (.opened x) = st1.mgr.log.count (.opened x) := by
  obtain ⟨u1, u2, ops, u3, u4⟩ := readFiles_uses (env := env) (.inr ⟨_, h2⟩)
  obtain ⟨p1, l, p2, p3⟩ := performAll_handles u3 u4
  refine ⟨by simp [start, h1, h2], u1.trans (setup_ends (.inl ⟨_, h1⟩)).1, p1, fun x => ?_⟩
  rw [p2]
  have := p3.count x
  simp [List.count_append, this]

/-! ## C78 -/

theorem loadAll_performs {env : Plugin.Env} {paths : List Str} {m m' : Plugin.Manager} (h : Plugin.loadAll env paths m = .ok () m') :
    performAll env (paths.map Op.load) m = some m' := by
  induction paths generalizing m with
  | nil => cases h; rfl
  | cons p paths ih =>
    rw [Plugin.loadAll] at h
    cases hl : Plugin.loadTemplate env p m with
    | ok r m1 => rw [hl] at h; simp [performAll, perform, hl, ih h]
    | throw e m1 => rw [hl] at h; cases h
    | ub => rw [hl] at h; cases h
    | terminate => rw [hl] at h; cases h

theorem loadPaths_append (a b : List Op) : Plugin.loadPaths (a ++ b) = Plugin.loadPaths a ++ Plugin.loadPaths b := by
  induction a with
  | nil => rfl
  | cons op a ih => cases op <;> simp [Plugin.loadPaths, ih]

theorem loadPaths_loads (ps : List Str) : Plugin.loadPaths (ps.map Op.load) = ps := by
  induction ps with
  | nil => rfl
  | cons p ps ih => simp [Plugin.loadPaths, ih]

theorem loadPaths_instantiate {ops : List Op} (h : ∀ op ∈ ops, ∃ early id, op = Op.instantiate early id none) :
    Plugin.loadPaths ops = [] := by
  induction ops with
  | nil => rfl
  | cons op ops ih =>
    obtain ⟨e, id, rfl⟩ := h op (List.mem_cons_self ..)
    exact ih (fun op ho => h op (List.mem_cons_of_mem _ ho))

theorem unloadTemplates_empty {m m' : Plugin.Manager} (h : Plugin.unloadTemplates m = .ok () m') : m'.templates = [] := by
  unfold Plugin.unloadTemplates at h
  split at h
  · rename_i he; cases h; exact List.isEmpty_iff.1 he
  · split at h
    · split at h <;> cases h; rfl
    · cases h
    · cases h
    · cases h

/-- When `Start` of a new host returns, the host no longer refers to the root bus, no template is left, and, the loaded files
having distinct identifiers, every library has been closed as often as it was opened. What runs on the bus cannot reach
the plugin manager (a private member); it may change the bus hierarchy. -/
theorem C78_everything_released {env : Plugin.Env} {tok : Str → Option Json} {early : Bool}
    {run : Nat → St → Plugin.Out St Unit} {files : List Str} {paths : List Str} {w : Bus.World} {st' : St}
    (hrun : ∀ b s s', run b s = .ok () s' → s'.mgr.templates = s.mgr.templates ∧ s'.mgr.log = s.mgr.log)
    (hd : DistinctIds env (templateFiles env paths))
    (h : start env tok early run files (create (emptyManager paths none w)) = .ok () st') :
    st'.rootBus = none ∧ st'.mgr.templates = [] ∧ ∀ x, st'.mgr.log.count (.opened x) = st'.mgr.log.count (.closed x) := by
  unfold start at h
  cases h1 : setup env { create (emptyManager paths none w) with runState := .running } with
  | ok _ st1 =>
    rw [h1] at h; simp only at h
    cases h2 : readFiles tok early files st1 with
    | ok _ st2 =>
      rw [h2] at h; simp only at h
      cases hb : st2.rootBus with
      | none => rw [hb] at h; cases h
      | some b =>
        rw [hb] at h; simp only at h
        cases h3 : run b st2 with
        | ok _ st3 =>
          obtain ⟨r1, r2⟩ := hrun _ _ _ h3
          rw [h3] at h; simp only at h
          cases h4 : teardown st3 with
          | ok _ st4 =>
            rw [h4] at h; cases h
            obtain ⟨u1, u2, ops, u3, u4⟩ := readFiles_uses (env := env) (.inl ⟨_, h2⟩)
            have h1' : Plugin.loadAll env (templateFiles env paths) (Plugin.setBus (some 0) (emptyManager paths none w)) = .ok () st1.mgr := by
              unfold setup onMgr at h1
              simp only [create, Plugin.loadTemplates, Plugin.setBus, emptyManager] at h1 ⊢
              split at h1 <;> cases h1
              rename_i hx; exact hx
            have hperf : performAll env ([.setBus (some 0)] ++ (templateFiles env paths).map Op.load ++ ops) (emptyManager paths none w) =
                some st2.mgr := performAll_append (performAll_append (by rfl) (loadAll_performs h1')) u4
            have hbal := Plugin.performAll_eq hperf Dict.sorted_nil (by
              rw [loadPaths_append, loadPaths_append, loadPaths_loads, loadPaths_instantiate u3]
              simpa [Plugin.loadPaths] using hd) (fun _ _ _ _ _ _ => rfl)
            unfold teardown at h4
            split at h4 <;> try contradiction
            split at h4 <;> try contradiction
            rename_i w1 _
            unfold onMgr at h4
            split at h4 <;> cases h4
            rename_i m1 hu
            refine ⟨rfl, unloadTemplates_empty hu, fun x => ?_⟩
            have h5 := Plugin.unloadTemplates_count hu x
            have h6 := hbal x
            simp only [r1, r2] at h5
            simp [emptyManager, Plugin.holds] at h6
            simp only [Plugin.holds] at h5
            show List.count _ m1.log = List.count _ m1.log
            omega
          | throw e st4 => rw [h4] at h; cases h
          | ub => rw [h4] at h; cases h
          | terminate => rw [h4] at h; cases h
        | throw e st3 => rw [h3] at h; cases h
        | ub => rw [h3] at h; cases h
        | terminate => rw [h3] at h; cases h
    | throw e st2 => rw [h2] at h; cases h
    | ub => rw [h2] at h; cases h
    | terminate => rw [h2] at h; cases h
  | throw e st1 => rw [h1] at h; cases h
  | ub => rw [h1] at h; cases h
  | terminate => rw [h1] at h; cases h

/-! ### The hypotheses are met -/

/-- A system with one plugin library in the directory /p. -/
def hostEnv : Plugin.Env where
  fs := ⟨fun p => some (if p = bs "/p" then .directory else .file), fun _ => true,
    fun p => if p = bs "/p" then some [bs "libplugin_a.so"] else none, some (bs "/bin/lamppost"), some (bs "/")⟩
  dlopen := fun p => if p = bs "/p/libplugin_a.so" then
    some (1, ⟨some (some (bs "A")), some (fun _ => .object ⟨none, none⟩)⟩) else none

/-- A configuration with one instance of it. -/
def hostConfig : Json := .object [(bs "plugins", .array [.object [(bs "type", .string (bs "A"))]])]

/-- The events of a call that returned, and whether the root bus has gone. -/
def seen : Plugin.Out St Unit → Option (List Plugin.Ev × Bool)
  | .ok _ st => some (st.mgr.log, st.rootBus.isNone)
  | _ => none

/-- A whole run of `Start` with one plugin. -/
theorem hostRun : seen (start hostEnv (fun _ => some hostConfig) false (fun _ s => .ok () s) [bs "c"]
    (create (emptyManager [bs "/p"] none Plugin.freshWorld))) =
    some ([.opened 1, .created (bs "A0"), .stopped (bs "A0"), .deinitialized (bs "A0"), .closed 1], true) := by
  decide +kernel

example : ∃ st', start hostEnv (fun _ => some hostConfig) false (fun _ s => .ok () s) [bs "c"]
    (create (emptyManager [bs "/p"] none Plugin.freshWorld)) = .ok () st' ∧ DistinctIds hostEnv (templateFiles hostEnv [bs "/p"]) := by
  have h := hostRun
  have hd : DistinctIds hostEnv (templateFiles hostEnv [bs "/p"]) := by
    have : templateFiles hostEnv [bs "/p"] = [bs "/p/libplugin_a.so"] := by decide +kernel
    rw [this]; simp [DistinctIds]
  cases hs : start hostEnv (fun _ => some hostConfig) false (fun _ s => .ok () s) [bs "c"]
      (create (emptyManager [bs "/p"] none Plugin.freshWorld)) with
  | ok u st' => exact ⟨st', rfl, hd⟩
  | throw e s => rw [hs] at h; cases h
  | ub => rw [hs] at h; cases h
  | terminate => rw [hs] at h; cases h

/-- A configuration that makes `Start` throw while a library is loaded. -/
example : (match setup hostEnv { create (emptyManager [bs "/p"] none Plugin.freshWorld) with runState := .running } with
    | .ok _ st1 => match readFiles (fun _ => some (.object [(bs "plugins", .null)])) false [bs "c"] st1 with
      | .throw _ st2 => some (st2.mgr.log, st2.rootBus.isSome)
      | _ => none
    | _ => none) = some ([.opened 1], true) := by decide +kernel

end LP.Host
