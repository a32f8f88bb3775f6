import Verif.Spec.Configured
import Verif.Prop.Hierarchy
/-!
# What is configured is what runs (C125)
-/
namespace LP.Plugin

/-- A file with the name of a plugin that is there. -/
def Candidate (env : Env) (path : Str) : Prop :=
  env.fs.exists_ (untilNul path) = true ∧
    ∃ name, AfterLastSlash path name ∧ (∃ rest, name = bs "libplugin_" ++ rest) ∧ ∃ stem, name = stem ++ bs ".so"

/-- The plugins in the search paths are in order: `CreateInfo` never returns a null pointer, and every template makes
instances that initialise and deinitialise without an exception and has an identifier that does not end in a digit. -/
structure Installed (env : Env) (paths : List Str) : Prop where
  answers : ∀ path ∈ Looked env.fs paths, Candidate env path → ∀ h lib, env.dlopen (untilNul path) = some (h, lib) →
    lib.createInfo ≠ some none
  works : ∀ path ∈ Looked env.fs paths, ∀ id x f, Qualifies env path id x f →
    ∀ n, ∃ i, f n = .object i ∧ i.initExn = none ∧ i.deinitExn = none
  named : ∀ path ∈ Looked env.fs paths, ∀ id x f, Qualifies env path id x f → ∀ c, id.getLast? = some c → ¬ IsDigit c

/-- There is a plugin with this identifier in the search paths. -/
def Available (env : Env) (paths : List Str) (id : Str) : Prop :=
  ∃ path ∈ Looked env.fs paths, ∃ x f, Qualifies env path id x f

theorem loadTemplate_ok {env : Env} (path : Str) (m : Manager) (hm : Main.Unused m)
    (hn : Candidate env path → ∀ h lib, env.dlopen (untilNul path) = some (h, lib) → lib.createInfo ≠ some none) :
    ∃ r m', loadTemplate env path m = .ok r m' := by
  by_cases hc : candidate env.fs path = true
  · have hn := hn ((candidate_iff env.fs path).1 hc)
    by_cases hq : ∃ id x f, Qualifies env path id x f
    · obtain ⟨id, x, f, hq⟩ := hq
      obtain ⟨lib, h3, h4, h5⟩ := hq.openable
      have hid : id.isEmpty = false := by
        cases hid : id with
        | nil => exact absurd hid hq.identified
        | cons _ _ => rfl
      unfold loadTemplate useLibrary
      rw [Fs.cstr_eq]
      simp only [hc, h3, h4, h5, hid, if_true, Bool.false_eq_true, if_false, storeTemplate]
      cases hf : m.templates.find id with
      | none => exact ⟨_, _, rfl⟩
      | some old =>
        obtain ⟨h', t⟩ := old
        have ht := hm id h' t hf
        simp only [destroyTemplate, unload, ht, stopAll, deinitAll]
        exact ⟨_, _, rfl⟩
    · obtain ⟨m', e, _⟩ := C60_other_file_rejected m (fun id x f hq' => hq ⟨id, x, f, hq'⟩) hn
      exact ⟨_, _, e⟩
  · exact ⟨false, m, by simp [loadTemplate, hc]⟩

theorem loadAll_ok {env : Env} : ∀ (files : List Str) (m : Manager), Main.Quiet m.log → Main.Unused m →
    (∀ path ∈ files, Candidate env path → ∀ h lib, env.dlopen (untilNul path) = some (h, lib) → lib.createInfo ≠ some none) →
    ∃ m', loadAll env files m = .ok () m'
  | [], m, _, _, _ => ⟨m, rfl⟩
  | path :: rest, m, hq, hm, hn => by
    obtain ⟨r, m1, e1⟩ := loadTemplate_ok path m hm (hn path List.mem_cons_self)
    obtain ⟨q1, u1⟩ := Main.quiet_load hq hm e1
    obtain ⟨m2, e2⟩ := loadAll_ok rest m1 q1 u1 (fun p hp => hn p (List.mem_cons_of_mem _ hp))
    exact ⟨m2, by simp only [loadAll, e1, e2]⟩

end LP.Plugin

namespace LP.Host
open Plugin (Out Op Ev emptyManager templateFiles Looked Qualifies Installed Available Fine Manager Template)

/-! ## The templates -/

theorem setup_ready {env : Plugin.Env} {paths : List Str} {name : Str} {w : Bus.World} (hi : Installed env paths)
    (hw : Bus.newRoot name = .ok w) :
    ∃ st1, setup env { create (emptyManager paths none w) with runState := .running } = .ok () st1 ∧
      Reached st1 ∧ Shows st1 (st1.mgr, []) ∧ Ready st1.mgr ∧ st1.rootBus = some 0 ∧ (∀ n, Ev.created n ∉ st1.mgr.log) ∧
      (∀ id, st1.mgr.templates.find id ≠ none ↔ Available env paths id) ∧
      (∀ id x t, st1.mgr.templates.find id = some (x, t) → ∃ f, t.make = some f ∧
        ∀ n, ∃ i, f n = .object i ∧ i.initExn = none ∧ i.deinitExn = none) := by
  let m0 : Manager := ⟨paths, some 0, [], w, []⟩
  obtain ⟨m1, e⟩ := Plugin.loadAll_ok (env := env) (Looked env.fs paths) m0 (fun n => by simp [m0]) (fun i h t hf => by cases hf) hi.answers
  have hl : Plugin.loadTemplates env m0 = .ok () m1 := by
    unfold Plugin.loadTemplates; rw [Plugin.templateFiles_looked]; exact e
  have ht := Plugin.C96_last_wins (env := env) (m := m0) rfl hl
  have hmem : ∀ {id x f}, Plugin.LastFor env (Looked env.fs paths) id x f →
      ∃ path ∈ Looked env.fs paths, Qualifies env path id x f := by
    rintro id x f ⟨b, p, a, e, hq, _⟩
    exact ⟨p, by rw [e]; simp, hq⟩
  have hw0 : (w.bus 0).attached = true ∧ (w.bus 0).children = [] := by
    unfold Bus.newRoot at hw
    split at hw <;> cases hw
    exact ⟨rfl, rfl⟩
  have hwm := Main.loadAll_world e
  have hk := Main.early_all (env := env) (m := m0) (fun name => by simp [m0]) (fun i h t hf => by cases hf)
    ⟨Dict.sorted_nil, fun _ => rfl, rfl⟩ e
  refine ⟨{ create (emptyManager paths none w) with runState := .running, mgr := m1 }, ?_, ?_, ⟨rfl, rfl, ?_⟩, ⟨hk.bus, ?_, ?_, ?_, ?_, ?_⟩, rfl, ?_, ?_, ?_⟩
  · simp only [m0] at hl
    simp only [setup, onMgr, create, Plugin.setBus, emptyManager, hl]
  · exact .other m1 (some 0) .running (.new (emptyManager paths none w))
  · intro i a b ha; simp [create] at ha
  · show (m1.world.bus 0).attached = true
    rw [hwm]; exact hw0.1
  · show (m1.world.bus 0).children = []
    rw [hwm]; exact hw0.2
  · intro id x t hf
    obtain ⟨f, hl, rfl⟩ := (ht id x t).1 hf
    exact ⟨rfl, rfl⟩
  · intro id x t hf
    obtain ⟨f, hl, rfl⟩ := (ht id x t).1 hf
    obtain ⟨p, hp, hq⟩ := hmem hl
    refine ⟨f, rfl, fun n => ?_⟩
    obtain ⟨i, h1, h2, _⟩ := hi.works p hp id x f hq n
    exact ⟨i, h1, h2⟩
  · intro id x t hf
    obtain ⟨f, hl, rfl⟩ := (ht id x t).1 hf
    obtain ⟨p, hp, hq⟩ := hmem hl
    exact hi.named p hp id x f hq
  · intro n hn
    have := hk.none n
    rw [List.count_eq_zero] at this
    exact this hn
  · intro id
    show m1.templates.find id ≠ none ↔ _
    constructor
    · intro h
      cases hf : m1.templates.find id with
      | none => exact absurd hf h
      | some v =>
        obtain ⟨f, hl, _⟩ := (ht id v.1 v.2).1 hf
        obtain ⟨p, hp, hq⟩ := hmem hl
        exact ⟨p, hp, _, _, hq⟩
    · rintro ⟨p, hp, x, f, hq⟩ hf
      rcases Plugin.loadAll_templates e id with ⟨x', f', _, h⟩ | ⟨h, _⟩
      · rw [h] at hf; cases hf
      · exact h p hp x f hq
  · intro id x t hf
    obtain ⟨f, hl, rfl⟩ := (ht id x t).1 hf
    obtain ⟨p, hp, hq⟩ := hmem hl
    exact ⟨f, rfl, hi.works p hp id x f hq⟩

/-! ## The instances -/

/-- All makers are in order, all instances can be deinitialised, and the instances that were created are those that were
started. -/
structure Kept (v : View) : Prop where
  makers : ∀ id x t, v.1.templates.find id = some (x, t) → ∃ f, t.make = some f ∧
    ∀ n, ∃ i, f n = .object i ∧ i.initExn = none ∧ i.deinitExn = none
  fine : ∀ id x t, v.1.templates.find id = some (x, t) → Fine t
  events : ∀ n, Ev.created n ∈ v.1.log ↔ Note.started n ∈ v.2

theorem kept_instantiate {early : Bool} {id : Str} {m : Manager} {ns : List (Note Tree)} (h : Kept (m, ns)) :
    (m.templates.find id ≠ none → ∀ m', Plugin.instantiateTemplate early id none m ≠ .ok none m') ∧
    (∀ e m', Plugin.instantiateTemplate early id none m = .throw e m' → Kept (m', ns)) ∧
    ∀ name i m', Plugin.instantiateTemplate early id none m = .ok (some (name, i)) m' → i.initExn = none ∧
      ∀ cfg, Kept (m', ns ++ [.initialized name cfg, .started name]) := by
  have same : ∀ {x t w}, m.templates.find id = some (x, t) →
      Kept ({ m with templates := m.templates.insert id (x, t), world := w, log := m.log }, ns) := by
    intro x t w hf
    have hfind : ∀ id' x' t', (m.templates.insert id (x, t)).find id' = some (x', t') → m.templates.find id' = some (x', t') := by
      intro id' x' t' hf'
      by_cases e : id = id'
      · subst e
        rw [Dict.find_insert_self] at hf'
        rw [hf]; exact hf'
      · rwa [Dict.find_insert_ne e] at hf'
    exact ⟨fun _ _ _ hf' => h.makers _ _ _ (hfind _ _ _ hf'), fun _ _ _ hf' => h.fine _ _ _ (hfind _ _ _ hf'), h.events⟩
  unfold Plugin.instantiateTemplate
  cases hf : m.templates.find id with
  | none => simp
  | some v =>
    obtain ⟨x, t⟩ := v
    obtain ⟨f, hmk, hg⟩ := h.makers id x t hf
    have key : (∃ e w, Plugin.instantiate early m.bus ⟨t, m.world, m.log⟩ = .throw e ⟨t, w, m.log⟩) ∨
        Plugin.instantiate early m.bus ⟨t, m.world, m.log⟩ = .ub ∨
        ∃ name i w, i.initExn = none ∧ i.deinitExn = none ∧ Plugin.instantiate early m.bus ⟨t, m.world, m.log⟩ =
          .ok (name, some i) ⟨⟨t.ident, t.make, t.instances.insert name (some i)⟩, w, m.log ++ [.created name]⟩ := by
      unfold Plugin.instantiate
      simp only [hmk]
      split
      · exact .inr (.inl rfl)
      · rename_i index _
        split
        · exact .inr (.inl rfl)
        · split
          · exact .inl ⟨_, _, rfl⟩
          · exact .inr (.inl rfl)
          · exact .inr (.inl rfl)
          · obtain ⟨i, h1, h2, h3⟩ := hg (t.name index)
            simp only [h1]
            exact .inr (.inr ⟨_, i, _, h2, h3, rfl⟩)
    rcases key with ⟨e, w, hr⟩ | hr | ⟨name, i, w, h2, h3, hr⟩
    · simp only [hr]
      refine ⟨(fun _ _ h => by cases h), fun e m' h => ?_, (fun _ _ _ h => by cases h)⟩
      cases h
      exact same hf
    · simp only [hr]
      refine ⟨(fun _ _ h => by cases h), (fun _ _ h => by cases h), (fun _ _ _ h => by cases h)⟩
    · simp only [hr]
      refine ⟨(fun _ _ h => by cases h), (fun _ _ h => by cases h), fun n' i' m' h' => ?_⟩
      cases h'
      refine ⟨h2, fun cfg => ⟨?_, ?_, ?_⟩⟩
      · intro id' x' t' hf'
        by_cases e : id = id'
        · subst e
          simp only [Dict.find_insert_self, Option.some.injEq, Prod.mk.injEq] at hf'
          obtain ⟨_, rfl⟩ := hf'
          exact ⟨f, hmk, hg⟩
        · simp only [Dict.find_insert_ne e] at hf'
          exact h.makers _ _ _ hf'
      · intro id' x' t' hf'
        by_cases e : id = id'
        · subst e
          simp only [Dict.find_insert_self, Option.some.injEq, Prod.mk.injEq] at hf'
          obtain ⟨_, rfl⟩ := hf'
          intro y hy
          rcases Dict.mem_insert hy with rfl | hy
          · exact ⟨i, rfl, h3⟩
          · exact h.fine _ _ _ hf y hy
        · simp only [Dict.find_insert_ne e] at hf'
          exact h.fine _ _ _ hf'
      · intro n
        have := h.events n
        simp only at this
        simp only [List.mem_append, this, List.mem_cons, List.not_mem_nil, or_false, Ev.created.injEq, reduceCtorEq,
          Note.started.injEq, false_or]

theorem kept_attempt {early : Bool} {type : Str} {cfg : Tree} {v v' : View} {x : Ending} (h : Kept v)
    (ha : Attempt early type cfg v x v') : Kept v' := by
  cases ha with
  | unknown => exact h
  | null h1 h2 => exact absurd h2 ((kept_instantiate h).1 h1 _)
  | fails h1 => exact (kept_instantiate h).2.1 _ _ h1
  | undefined => exact h
  | notInitialized h1 h2 =>
    have := ((kept_instantiate h).2.2 _ _ _ h1).1
    rw [this] at h2; cases h2
  | started h1 => exact ((kept_instantiate h).2.2 _ _ _ h1).2 _

theorem Kept.report {m : Manager} {ns : List (Note Tree)} (h : Kept (m, ns)) (type : Str) (cfg : Tree) :
    Kept (m, ns ++ [.reported type cfg]) :=
  ⟨h.makers, h.fine, fun n => by rw [h.events n]; simp⟩

theorem kept_runs {early : Bool} {es : List Tree} {v v' : View} {x : Ending} (h : Runs early es v x v') (hk : Kept v) : Kept v' := by
  induction h with
  | nil => exact hk
  | ignored _ _ ih => exact ih hk
  | malformed => exact hk
  | done _ ha _ ih => exact ih (kept_attempt hk ha)
  | skipped _ ha _ ih => exact ih ((kept_attempt hk ha).report _ _)
  | thrown _ ha => exact kept_attempt hk ha
  | undefined _ ha => exact kept_attempt hk ha

/-! ## All files -/

theorem files_expected {tok : Str → Option Json} {early : Bool} {loaded : Str → Prop} {texts : List Str} {es : List Tree}
    (ha : Asks tok texts es) : ∀ {st : St} {v : View} {k : Str → Nat}, Reached st → Shows st v → Serving loaded v.1 k → Kept v →
    (∀ e ∈ es, ¬ Malformed e) → (∀ id, k id + es.length < 2 ^ 31) →
    ∃ st' v' more, readFiles tok early texts st = .ok () st' ∧ Shows st' v' ∧ v'.2 = v.2 ++ more ∧ Kept v' ∧
      Expected loaded k es more := by
  induction ha with
  | nil =>
    intro st v k _ hv _ hk _ _
    exact ⟨st, v, [], rfl, hv, by simp, hk, .nil⟩
  | @cons text texts t es more ht hlist _ ih =>
    intro st v k hst hv hs hk hm hlen
    have hlen' : ∀ id, k id + es.length + more.length < 2 ^ 31 := fun id => by
      have := hlen id; rw [List.length_append] at this; omega
    obtain ⟨x, v1, h1, h2⟩ := C63_file_processed (early := early) hst hv ht
    have key : ∃ more1 k1, x = .returns ∧ v1.2 = v.2 ++ more1 ∧ Serving loaded v1.1 k1 ∧ Kept v1 ∧ (∀ id, k1 id ≤ k id + es.length) ∧
        ∀ es2 more2, Expected loaded k1 es2 more2 → Expected loaded k (es ++ es2) (more1 ++ more2) := by
      have hrun : ∀ ds, t = .dict ds → Dict.find (bs "plugins") ds = some (.list es) → ∀ {v' x}, Runs early (es.take (intCount es.length)) v x v' →
          ∃ more1 k1, x = .returns ∧ v'.2 = v.2 ++ more1 ∧ Serving loaded v'.1 k1 ∧ Kept v' ∧ (∀ id, k1 id ≤ k id + es.length) ∧
          ∀ es2 more2, Expected loaded k1 es2 more2 → Expected loaded k (es ++ es2) (more1 ++ more2) := by
        intro ds _ _ v' x hr
        rw [intCount_small (by have := hlen' []; omega), List.take_length] at hr
        obtain ⟨e1, more1, k1, e2, e3, e4, e5⟩ := runs_serving hr k hs (fun e he => hm e (List.mem_append_left _ he)) (fun id => by
          have := hlen' id; show _ ≤ 2147483648; omega)
        exact ⟨more1, k1, e1, e2, e3, kept_runs hr hk, e4, e5⟩
      cases hlist with
      | none hno =>
        cases h1 with
        | noPlugins => exact ⟨[], k, rfl, by simp, hs, hk, fun _ => Nat.le_refl _, fun _ _ h => h⟩
        | scalar e1 e2 => rw [hno _ e1] at e2; cases e2
        | dictionary e1 e2 => rw [hno _ e1] at e2; cases e2
        | emptyDictionary e1 e2 => rw [hno _ e1] at e2; cases e2
        | list e1 e2 => rw [hno _ e1] at e2; cases e2
      | list hp =>
        cases h1 with
        | noPlugins h => rw [h _ rfl] at hp; cases hp
        | scalar h h' h'' =>
          cases h; rw [h'] at hp; cases hp
          rcases h'' with h'' | ⟨_, h''⟩ <;> cases h''
        | dictionary h h' h'' => cases h; rw [h'] at hp; cases hp
        | emptyDictionary h h' h'' => cases h; rw [h'] at hp; cases hp
        | list h h' h'' =>
          cases h; rw [h'] at hp; cases hp
          exact hrun _ rfl h' h''
    obtain ⟨more1, k1, rfl, e2, e3, e4, e5, e6⟩ := key
    obtain ⟨st1, h3, h4⟩ := h2
    obtain ⟨st2, v2, more2, g1, g2, g3, g4, g5⟩ := ih (hst.read h3) h4 e3 e4 (fun e he => hm e (List.mem_append_right _ he))
      (fun id => by have := hlen' id; have := e5 id; omega)
    refine ⟨st2, v2, more1 ++ more2, ?_, g2, by rw [g3, e2, List.append_assoc], g4, e6 _ _ g5⟩
    simp only [readFiles, h3, g1]

/-- With plugins that are in order and configuration files whose entries have no type that is not a string, loading and
reading succeed, and what was done is what all entries of all files, one after the other, ask for: an entry with the
identifier of a plugin in the search paths gives an instance, initialised with the entry's configuration and started, and
numbered over all files; any other entry with a type is reported. -/
theorem C125_configured {env : Plugin.Env} {tok : Str → Option Json} {early : Bool} {files paths : List Str} {name : Str}
    {w : Bus.World} {es : List Tree} (hw : Bus.newRoot name = .ok w) (hi : Installed env paths) (ha : Asks tok files es)
    (hm : ∀ e ∈ es, ¬ Malformed e) (hlen : es.length < 2 ^ 31) :
    ∃ st1 st2 notes, setup env { create (emptyManager paths none w) with runState := .running } = .ok () st1 ∧
      readFiles tok early files st1 = .ok () st2 ∧ Shows st2 (st2.mgr, notes) ∧
      Expected (Available env paths) (fun _ => 0) es notes ∧
      (∀ n, Ev.created n ∈ st2.mgr.log ↔ Note.started n ∈ notes) ∧ ∀ e ∈ st2.mgr.templates, Fine e.2.2 := by
  obtain ⟨st1, h1, h2, h3, h4, h5, h6, h7, h8⟩ := setup_ready hi hw
  have hs := h4.serving
  rw [show (fun id => st1.mgr.templates.find id ≠ none) = Available env paths from funext (fun id => propext (h7 id))] at hs
  have hk : Kept (st1.mgr, []) := by
    refine ⟨h8, fun id x t hf => ?_, fun n => by simp [h6 n]⟩
    rw [Fine, (h4.unused id x t hf).2]
    intro e he; cases he
  obtain ⟨st2, v2, notes, g1, g2, g3, g4, g5⟩ := files_expected (early := early) ha h2 h3 hs hk hm (fun _ => by omega)
  obtain ⟨m2, n2⟩ := v2
  have := g2.1
  simp only at this
  subst this
  simp only [List.nil_append] at g3
  subst g3
  refine ⟨st1, st2, n2, h1, g1, g2, g5, g4.events, ?_⟩
  have hb := Main.book_config h1 (.inl ⟨_, g1⟩)
  intro e he
  exact g4.fine e.1 e.2.1 e.2.2 (Dict.mem_find hb.sorted he)

end LP.Host

namespace LP.Main
open Plugin (Ev emptyManager templateFiles Installed Available)
open Host (St Outside setup readFiles teardown Asks Malformed Shows Expected Note)

/-- The whole program: with plugins that are in order in the directories it searches and a configuration file (or none)
whose entries have no type that is not a string, it gets to running the root bus, with exactly the instances the
configuration asks for started, each with a bus of its own name. How the program ends is up to what happens there: when
the bus stops, it ends with status 0, and the instances created are those configured, each created, stopped and
deinitialised once. -/
theorem C125_program {env : Plugin.Env} {tok : Str → Option Json} {early : Bool} {contents : Str → Option Str}
    {args : List Str} {es : List Tree} (hl : Located env.fs) (hi : ∀ paths, Searches env.fs paths → Installed env paths)
    (ha : Asks tok ((args.take 1).map (fun f => (contents f).getD [])) es) (hm : ∀ e ∈ es, ¬ Malformed e)
    (hlen : es.length < 2 ^ 31) :
    ∃ paths st notes, Searches env.fs paths ∧ Shows st (st.mgr, notes) ∧
      Expected (Available env paths) (fun _ => 0) es notes ∧
      (∃ σ, Bus.Reachable σ ∧ σ.w = st.mgr.world ∧ ∀ n, .started n ∈ notes →
        ∃ c, Bus.getChildBus 0 n σ.w = .ok c σ.w ∧ (σ.w.bus c).name = n) ∧
      ∀ run, Outside run →
        (run 0 st = .ub → main env tok early run contents args = .ub) ∧
        (∀ e s, run 0 st = .throw e s → main env tok early run contents args = .aborted (some (e, s.mgr.log))) ∧
        (∀ s σ, run 0 st = .ok () s → s.rootBus = some 0 → Bus.Reachable σ → σ.w = s.mgr.world →
          ∃ log, main env tok early run contents args = .exit 0 log ∧ ∀ n,
            (Ev.created n ∈ log ↔ Note.started n ∈ notes) ∧ log.count (.created n) ≤ 1 ∧
            log.count (.stopped n) = log.count (.created n) ∧ log.count (.deinitialized n) = log.count (.created n)) := by
  obtain ⟨paths, w, hs, hw, hc⟩ := C108_constructed hl [] (args.take 1)
  rw [List.nil_append] at hc
  obtain ⟨st1, st, notes, h1, h2, h3, h4, h5, h6⟩ := Host.C125_configured (early := early) hw (hi paths hs) ha hm hlen
  obtain ⟨σ, g1, g2, _, _, _, g3⟩ := C113_hierarchy hw h1 (.inl ⟨_, h2⟩)
  have hroot : st.rootBus = some 0 := by
    rw [(Host.readFiles_uses (env := env) (.inl ⟨_, h2⟩)).1, (Host.setup_ends (.inl ⟨_, h1⟩)).1]
    rfl
  refine ⟨paths, st, notes, hs, h3, h4, ⟨σ, g1, g2, fun n hn => ?_⟩, fun run hrun => ?_⟩
  · obtain ⟨c, c1, c2, _⟩ := g3 n ((h5 n).2 hn)
    exact ⟨c, c1, c2⟩
  · have hmain : ∀ r, Host.start env tok early run ((args.take 1).map (fun f => (contents f).getD []))
        (Host.create (emptyManager paths none w)) = r → main env tok early run contents args =
        match r with
        | .ok _ st1 => match Host.destroy st1 with
          | .ok _ st2 => .exit 0 st2.mgr.log
          | .throw _ _ => .aborted none
          | .ub => .ub
          | .terminate => .aborted none
        | .throw e st1 => .aborted (some (e, st1.mgr.log))
        | .ub => .ub
        | .terminate => .aborted none := by
      intro r hr
      unfold main
      rw [files_take, hc]
      simp only [hr]
      cases r <;> rfl
    have hstart : Host.start env tok early run ((args.take 1).map (fun f => (contents f).getD []))
        (Host.create (emptyManager paths none w)) = match run 0 st with
          | .ok _ st3 => match teardown st3 with
            | .ok _ st4 => .ok () { st4 with runState := .running }
            | r => r
          | r => r := by
      unfold Host.start
      simp only [h1, h2, hroot]
      cases run 0 st with
      | ok u st3 => cases teardown st3 <;> rfl
      | _ => rfl
    refine ⟨fun hr => ?_, fun e s hr => ?_, fun s σ' hr hb hr' hw' => ?_⟩
    · rw [hmain .ub (by rw [hstart, hr])]
    · rw [hmain (.throw e s) (by rw [hstart, hr])]
    · obtain ⟨t, l, _⟩ := hrun _ _ _ (.inl ⟨_, hr⟩)
      obtain ⟨w1, d1, _⟩ := Bus.C32_detach_covers_subtree σ'.w ⟨σ', hr', rfl⟩ 0 hr'.inv.wok.root σ'.w.nb (Nat.le_refl _)
      have htd : teardown s = .ok () { s with
          rootBus := none
          mgr := { s.mgr with world := w1, templates := [], log := s.mgr.log ++ Plugin.unloaded s.mgr.templates } } := by
        unfold teardown
        rw [hb]
        simp only [← hw', d1, Host.onMgr]
        rw [Plugin.unloadTemplates_fine (m := { s.mgr with world := w1 }) (by rw [show ({ s.mgr with world := w1 } : Plugin.Manager).templates = s.mgr.templates from rfl, t]; exact h6)]
      have hs' := hstart
      rw [hr] at hs'
      simp only [htd] at hs'
      have hd := hmain _ hs'
      simp only [Host.destroy, Host.onMgr, Plugin.destroyManager, Plugin.unloadTemplates, List.isEmpty_nil, if_true] at hd
      refine ⟨_, hd, fun n => ?_⟩
      have := C109_program hl hrun hd n
      refine ⟨?_, this⟩
      rw [← h5 n]
      simp only [List.mem_append, l]
      have hz := (count_unloaded (n := n) (d := s.mgr.templates) (by rw [t]; exact h6)).2.2
      rw [List.count_eq_zero] at hz
      simp [hz]

/-! ## Cases -/

theorem env1_installed (paths : List Str) : Installed env1 paths := by
  have key : ∀ path h lib, env1.dlopen path = some (h, lib) →
      lib = ⟨some (some (bs "A")), some (fun _ => .object ⟨none, none⟩)⟩ := by
    intro path h lib hd
    simp only [env1] at hd
    split at hd <;> cases hd
    rfl
  have key2 : ∀ path id x f, Plugin.Qualifies env1 path id x f → id = bs "A" ∧ f = fun _ => .object ⟨none, none⟩ := by
    intro path id x f hq
    obtain ⟨lib, h1, h2, h3⟩ := hq.openable
    have := key _ _ _ h1
    subst this
    cases h2; cases h3
    exact ⟨rfl, rfl⟩
  refine ⟨fun path _ _ h lib hd => ?_, fun path _ id x f hq n => ?_, fun path _ id x f hq c hc => ?_⟩
  · rw [key _ _ _ hd]; simp
  · obtain ⟨_, rfl⟩ := key2 _ _ _ _ hq
    exact ⟨_, rfl, rfl, rfl⟩
  · obtain ⟨rfl, _⟩ := key2 _ _ _ _ hq
    have h : (bs "A").getLast? = some 65 := by decide
    rw [h] at hc; cases hc
    simp [IsDigit]

/-- Three files: one that asks for a plugin that is there and one that is not, one that is not JSON (as one that cannot be
read), and one that asks for the plugin again. -/
def threeFiles (t : Str) : Option Json :=
  if t = bs "1" then some (.object [(bs "plugins", .array [.object [(bs "type", .string (bs "A"))],
    .object [(bs "type", .string (bs "Nope"))]])])
  else if t = bs "3" then some Host.hostConfig else none

/-- An entry of "plugins" (LampPost.cpp:84-107) with nothing but a type. -/
def entry (type : String) : Tree := .dict [(bs "type", .value (.str (bs type)))]

theorem entry_names (type : String) : Host.Names (entry type) (bs type) .empty :=
  ⟨_, rfl, Host.find_one _ _, .inr ⟨by simp [Dict.find]; decide, rfl⟩⟩

theorem entry_fine (type : String) : ¬ Malformed (entry type) := by
  rintro ⟨ds, u, h1, h2, h3⟩
  cases h1
  rw [Host.find_one] at h2; cases h2; exact h3 _ rfl

theorem entry_means (t : String) (h0 : (0 : UInt8) ∉ bs t) : JsonMeans (.object [(bs "type", .string (bs t))]) (entry t) :=
  Host.means_object_one (by decide) (.string (.inl ⟨h0, rfl⟩))

theorem thirdFile_asks : Asks threeFiles [bs "3"] ([entry "A"] ++ []) := by
  refine .cons (t := .dict [(bs "plugins", .list [entry "A"])]) ?_ (.list (Host.find_one _ _)) .nil
  show JsonMeans _ _
  refine Host.means_object_one (by decide) (Host.means_array (by simp) rfl ?_)
  intro i j t h1 h2
  match i with
  | 0 => cases h1; cases h2; exact entry_means _ (by decide)
  | i + 1 => cases h1

theorem threeFiles_ask : Asks threeFiles [bs "1", [], bs "3"] ([entry "A", entry "Nope"] ++ ([] ++ ([entry "A"] ++ []))) := by
  refine .cons (t := .dict [(bs "plugins", .list [entry "A", entry "Nope"])]) ?_ (.list (Host.find_one _ _))
    (.cons (t := .empty) ?_ (.none (fun ds h => by cases h)) thirdFile_asks)
  · show JsonMeans _ _
    refine Host.means_object_one (by decide) (Host.means_array (by simp) rfl ?_)
    intro i j t h1 h2
    match i with
    | 0 => cases h1; cases h2; exact entry_means _ (by decide)
    | 1 => cases h1; cases h2; exact entry_means _ (by decide)
    | i + 2 => cases h1
  · rfl

example : ∃ es : List Tree, Asks threeFiles [bs "1", [], bs "3"] es ∧ (∀ e ∈ es, ¬ Malformed e) ∧ es.length < 2 ^ 31 ∧ es.length = 3 := by
  refine ⟨_, threeFiles_ask, ?_, by decide, rfl⟩
  intro e he
  simp only [List.cons_append, List.nil_append, List.mem_cons, List.not_mem_nil, or_false] at he
  rcases he with rfl | rfl | rfl <;> exact entry_fine _

/-- What they give: the instance of the third file is number 1. -/
example : Expected (fun id => id = bs "A") (fun _ => 0) [entry "A", entry "Nope", entry "A"]
    [.initialized (bs "A0") .empty, .started (bs "A0"), .reported (bs "Nope") .empty, .initialized (bs "A1") .empty, .started (bs "A1")] := by
  have e0 : bs "A" ++ natToStr 0 = bs "A0" := by decide +kernel
  have e1 : bs "A" ++ natToStr 1 = bs "A1" := by decide +kernel
  rw [← e0, ← e1]
  exact .known (entry_names _) rfl (.unknown (entry_names _) (by decide) (.known (entry_names _) rfl .nil))

/-- The program with the last of them. -/
example : Located env1.fs ∧ (∀ paths, Searches env1.fs paths → Installed env1 paths) ∧
    Asks threeFiles (([bs "c"].take 1).map (fun f => ((fun _ => some (bs "3")) f : Option Str).getD [])) [entry "A"] ∧
    ∃ run : Nat → St → Plugin.Out St Unit, Outside run ∧ ∀ st, ∃ s, run 0 st = .ok () s ∧ s.rootBus = st.rootBus ∧ s.mgr.world = st.mgr.world := by
  refine ⟨⟨⟨_, rfl, by decide, by decide⟩, _, rfl, by decide, by decide⟩, fun paths _ => env1_installed paths, ?_,
    fun _ s => .ok () s, ?_, fun st => ⟨st, rfl, rfl, rfl⟩⟩
  · exact thirdFile_asks
  · rintro b s s' (⟨_, h⟩ | ⟨_, h⟩) <;> cases h
    exact ⟨rfl, rfl, rfl⟩

end LP.Main
