import Verif.Model.PluginWin
import Verif.Prop.PluginManager
import Verif.Prop.FsWin
/-!
# Plugin templates on Windows (C106)
-/
namespace LP.PluginWin
open Plugin (Out Manager Made Template Ev)
open FsWin (backslash)

/-- The part of a path after its last '\\'. -/
def AfterLastBackslash (path name : Str) : Prop := ∃ dir, path = dir ++ backslash :: name ∧ backslash ∉ name

/-- A file named like a plugin: it exists and is called `plugin_*.dll`. -/
def Named (fs : FsWin.World) (path : Str) : Prop :=
  fs.exists_ (untilNul path) = true ∧
    ∃ name, AfterLastBackslash path name ∧ (∃ rest, name = bs "plugin_" ++ rest) ∧ ∃ stem, name = stem ++ bs ".dll"

/-- A file that qualifies as the plugin template `id`, with what opening it gives: it is named like a plugin, opens,
exports both functions under the names a 32-bit compiler gives them, and its info names a non-empty identifier. -/
structure Qualifies (env : Env) (path : Str) (id : Str) (handle : Nat) (f : Str → Made) : Prop where
  named : Named env.fs path
  openable : ∃ lib : Lib, env.load (untilNul path) = some (handle, lib) ∧ lib.info (bs "_CreateInfo@0") = some (some id) ∧
    lib.create (bs "_CreateInstance@" ++ natToStr env.size) = some f
  identified : id ≠ []

theorem candidate_iff (fs : FsWin.World) (path : Str) : candidate fs path = true ↔ Named fs path := by
  have hdot : ∀ s : Str, s ++ bs ".dll" = s ++ dot :: bs "dll" := fun s => rfl
  constructor
  · intro h
    simp only [candidate, Bool.and_eq_true, beq_iff_eq, FsWin.pathExists, Fs.cstr_eq] at h
    obtain ⟨⟨h1, h2⟩, h3⟩ := h
    have hs : backslash ∈ path := by
      by_cases hs : backslash ∈ path
      · exact hs
      · rw [((FsWin.C95_recombine path).2 hs).2.2] at h2
        exact absurd h2 (by decide)
    refine ⟨h1, FsWin.getFilename path, ?_, ?_, ?_⟩
    · obtain ⟨a, b, e, hb⟩ := Fs.cut_last hs
      have : path = FsWin.combinePaths a b := by simp [FsWin.combinePaths, e]
      rw [this, (FsWin.C95_parts_of_combined a b hb).1]
      exact ⟨a, by simp [FsWin.combinePaths], hb⟩
    · refine ⟨(FsWin.getFilename path).drop templateFilePrefix.length, ?_⟩
      have := (List.take_append_drop templateFilePrefix.length (FsWin.getFilename path)).symm
      unfold Str.substr0 at h3
      rw [h3] at this
      exact this
    · by_cases hd : dot ∈ FsWin.getFilename path
      · obtain ⟨a, e, he, hne⟩ := Fs.cut_last hd
        rw [(FsWin.C95_extension path).2 a e he hne] at h2
        refine ⟨a, ?_⟩
        rw [he, hdot, h2]; rfl
      · rw [(FsWin.C95_extension path).1 hd] at h2
        exact absurd h2 (by decide)
  · rintro ⟨h1, name, ⟨dir, hp, hs⟩, ⟨rest, hr⟩, stem, hst⟩
    have hfn : FsWin.getFilename path = name := by
      rw [hp]
      have := (FsWin.C95_parts_of_combined dir name hs).1
      simpa [FsWin.combinePaths] using this
    simp only [candidate, Bool.and_eq_true, beq_iff_eq, FsWin.pathExists, Fs.cstr_eq]
    refine ⟨⟨h1, ?_⟩, ?_⟩
    · exact (FsWin.C95_extension path).2 stem (bs "dll") (by rw [hfn, hst, hdot]) (by decide)
    · rw [hfn, hr]
      exact List.take_left

/-- A file that qualifies is loaded: the template is stored under its identifier, and nothing else changes. -/
theorem C106_loads {env : Env} {path id : Str} {handle : Nat} {f : Str → Made} (m : Manager)
    (hq : Qualifies env path id handle f) (hnew : m.templates.find id = none) :
    ∃ m', loadTemplate env path m = .ok true m' ∧ m'.templates.find id = some (handle, ⟨id, some f, []⟩) ∧
      (∀ other, other ≠ id → m'.templates.find other = m.templates.find other) ∧
      m'.world = m.world ∧ m'.log = m.log ++ [.opened handle] := by
  obtain ⟨h1, ⟨lib, h3, h4, h5⟩, h6⟩ := hq
  have hc := (candidate_iff env.fs path).2 h1
  have hid : id.isEmpty = false := by
    cases id with
    | nil => exact absurd rfl h6
    | cons _ _ => rfl
  refine ⟨{ m with templates := m.templates.insert id (handle, ⟨id, some f, []⟩), log := m.log ++ [.opened handle] },
    ?_, by simp, fun other ho => Dict.find_insert_ne (Ne.symm ho) _ _, rfl, rfl⟩
  have e1 : (functions env.size lib).createInfo = some (some id) := h4
  have e2 : (functions env.size lib).createInstance = some f := h5
  unfold loadTemplate Plugin.useLibrary
  rw [Fs.cstr_eq]
  simp [hc, h3, e1, e2, hid, Plugin.storeTemplate, hnew]

/-- Any other file is not: nothing changes, and a library that was opened is closed again. -/
theorem C106_rejects {env : Env} {path : Str} (m : Manager) (hq : ∀ id handle f, ¬ Qualifies env path id handle f)
    (hnull : ∀ h lib, env.load (untilNul path) = some (h, lib) → lib.info (bs "_CreateInfo@0") ≠ some none) :
    ∃ m', loadTemplate env path m = .ok false m' ∧ m'.templates = m.templates ∧ m'.world = m.world ∧
      (m'.log = m.log ∨ ∃ h, m'.log = m.log ++ [.opened h, .closed h]) := by
  unfold loadTemplate Plugin.useLibrary
  rw [Fs.cstr_eq]
  by_cases hc : candidate env.fs path = true
  · have hn := (candidate_iff env.fs path).1 hc
    simp only [hc, if_true]
    cases hd : env.load (untilNul path) with
    | none => exact ⟨m, rfl, rfl, rfl, .inl rfl⟩
    | some r =>
      obtain ⟨h, lib⟩ := r
      have hnull := hnull h lib hd
      simp only [Option.map_some]
      cases hi : lib.info (bs "_CreateInfo@0") with
      | none =>
        have e1 : (functions env.size lib).createInfo = none := hi
        simp only [e1]
        exact ⟨_, rfl, rfl, rfl, .inr ⟨h, by simp⟩⟩
      | some i => cases i with
        | none => exact absurd hi hnull
        | some id =>
          have e1 : (functions env.size lib).createInfo = some (some id) := hi
          simp only [e1]
          cases id with
          | nil => exact ⟨_, rfl, rfl, rfl, .inr ⟨h, by simp⟩⟩
          | cons c s =>
            cases hf : lib.create (bs "_CreateInstance@" ++ natToStr env.size) with
            | none =>
              have e2 : (functions env.size lib).createInstance = none := hf
              simp only [e2]
              exact ⟨_, rfl, rfl, rfl, .inr ⟨h, by simp⟩⟩
            | some f => exact absurd ⟨hn, ⟨lib, hd, hi, hf⟩, by simp⟩ (hq (c :: s) h f)
  · simp only [hc]
    exact ⟨m, rfl, rfl, rfl, .inl rfl⟩

/-- A library whose exports are named as a 64-bit compiler names them, without decoration. -/
def Undecorated (lib : Lib) : Prop :=
  (∀ n, lib.info n ≠ none → n = bs "CreateInfo") ∧ ∀ n, lib.create n ≠ none → n = bs "CreateInstance"

/-- Such a library is never loaded, however it is named and wherever it is: `LoadTemplate` returns false and closes it. -/
theorem C106_undecorated {env : Env} {path : Str} (m : Manager)
    (hu : ∀ h lib, env.load (untilNul path) = some (h, lib) → Undecorated lib) :
    ∃ m', loadTemplate env path m = .ok false m' ∧ m'.templates = m.templates ∧ m'.world = m.world ∧
      (m'.log = m.log ∨ ∃ h, m'.log = m.log ++ [.opened h, .closed h]) := by
  have hno : ∀ h lib, env.load (untilNul path) = some (h, lib) → lib.info (bs "_CreateInfo@0") = none := by
    intro h lib hl
    cases hi : lib.info (bs "_CreateInfo@0") with
    | none => rfl
    | some x => exact absurd ((hu h lib hl).1 (bs "_CreateInfo@0") (by rw [hi]; simp)) (by decide)
  refine C106_rejects m (fun id handle f hq => ?_) (fun h lib hl => by rw [hno h lib hl]; simp)
  obtain ⟨lib, hl, hi, _⟩ := hq.openable
  rw [hno _ _ hl] at hi
  cases hi

theorem loadAll_undecorated {env : Env} (hu : ∀ path h lib, env.load path = some (h, lib) → Undecorated lib) :
    ∀ (files : List Str) (m : Manager), ∃ m', loadAll env files m = .ok () m' ∧ m'.templates = m.templates
  | [], m => ⟨m, rfl, rfl⟩
  | path :: rest, m => by
    obtain ⟨m1, e1, t1, _⟩ := C106_undecorated (path := path) m (fun h lib hl => hu _ h lib hl)
    obtain ⟨m2, e2, t2⟩ := loadAll_undecorated hu rest m1
    exact ⟨m2, by simp only [loadAll, e1, e2], by rw [t2, t1]⟩

/-- With such libraries only, `LoadTemplates` never adds a template, whatever the search paths hold. -/
theorem C106_no_templates {env : Env} (hu : ∀ path h lib, env.load path = some (h, lib) → Undecorated lib)
    {m m' : Manager} (h : loadTemplates env m = .ok () m') : m'.templates = m.templates := by
  have key : ∀ (ps : List Str) (m m' : Manager), loadFrom env ps m = .ok () m' → m'.templates = m.templates := by
    intro ps
    induction ps with
    | nil => intro m m' h; cases h; rfl
    | cons p ps ih =>
      intro m m' h
      unfold loadFrom at h
      split at h
      · cases h
      · rename_i names _
        obtain ⟨m1, e1, t1⟩ := loadAll_undecorated hu (names.map (FsWin.combinePaths p)) m
        rw [e1] at h
        rw [ih m1 m' h, t1]
  exact key _ _ _ h

/-! ## Directories that cannot be searched -/

/-- The directory can be searched. -/
def Searchable (w : FsWin.World) (dir : Str) : Prop := (w.find (untilNul (dir ++ backslash :: [42]))).isSome = true

theorem contents_defined {w : FsWin.World} {dir : Str} (h : Searchable w dir) (filter : Nat) :
    ∃ names, FsWin.getDirectoryContents w dir filter = some names := by
  have e : FsWin.combinePaths dir (bs "*") = dir ++ backslash :: [42] := by
    have : bs "*" = [42] := by decide
    simp [FsWin.combinePaths, this]
  unfold Searchable at h
  simp only [FsWin.getDirectoryContents, Fs.cstr_eq, e]
  cases hf : w.find (untilNul (dir ++ backslash :: [42])) with
  | none => rw [hf] at h; cases h
  | some x => exact ⟨_, rfl⟩

theorem contents_undefined {w : FsWin.World} {dir : Str} (h : ¬ Searchable w dir) (filter : Nat)
    (h0 : (0 : UInt8) ∉ w.junkName) : FsWin.getDirectoryContents w dir filter = none := by
  have e : FsWin.combinePaths dir (bs "*") = dir ++ backslash :: [42] := by
    have : bs "*" = [42] := by decide
    simp [FsWin.combinePaths, this]
  have hn : w.find (untilNul (dir ++ backslash :: [42])) = none := by
    cases hf : w.find (untilNul (dir ++ backslash :: [42])) with
    | none => rfl
    | some x => exact absurd (by simp [Searchable, hf]) h
  simp only [FsWin.getDirectoryContents, Fs.cstr_eq, e, hn]
  have hh : w.junkName.head? ≠ some 0 := by
    cases hj : w.junkName with
    | nil => simp
    | cons c s =>
      intro hc
      simp at hc
      exact h0 (by rw [hj, hc]; exact List.mem_cons_self)
  rw [if_neg hh, if_neg h0]

/-- No library has a `CreateInfo` that returns a null pointer. -/
def NoNull (env : Env) : Prop := ∀ path h lib, env.load path = some (h, lib) → lib.info (bs "_CreateInfo@0") ≠ some none

/-- The templates have no instances yet. -/
def Unused (m : Manager) : Prop := ∀ id h t, m.templates.find id = some (h, t) → t.instances = []

theorem loadTemplate_ok {env : Env} (hn : NoNull env) (path : Str) (m : Manager) (hm : Unused m) :
    ∃ r m', loadTemplate env path m = .ok r m' ∧ Unused m' := by
  by_cases hq : ∃ id x f, Qualifies env path id x f
  · obtain ⟨id, x, f, hq⟩ := hq
    have hq0 := hq
    obtain ⟨h1, ⟨lib, h3, h4, h5⟩, h6⟩ := hq0
    have hc := (candidate_iff env.fs path).2 h1
    have hid : id.isEmpty = false := by
      cases id with
      | nil => exact absurd rfl h6
      | cons _ _ => rfl
    have e1 : (functions env.size lib).createInfo = some (some id) := h4
    have e2 : (functions env.size lib).createInstance = some f := h5
    have hu : ∀ log, Unused { m with templates := m.templates.insert id (x, ⟨id, some f, []⟩), log := log } := by
      intro log i h t hf
      by_cases hi : id = i
      · subst hi
        simp at hf
        obtain ⟨_, rfl⟩ := hf
        rfl
      · rw [show ({ m with templates := m.templates.insert id (x, ⟨id, some f, []⟩), log := log } : Manager).templates =
          m.templates.insert id (x, ⟨id, some f, []⟩) from rfl, Dict.find_insert_ne hi] at hf
        exact hm i h t hf
    unfold loadTemplate Plugin.useLibrary
    rw [Fs.cstr_eq]
    simp only [hc, h3, e1, e2, hid, if_true, Option.map_some, Bool.false_eq_true, if_false, Plugin.storeTemplate]
    cases hf : m.templates.find id with
    | none => exact ⟨_, _, rfl, hu _⟩
    | some old =>
      obtain ⟨h', t⟩ := old
      have ht := hm id h' t hf
      simp only [Plugin.destroyTemplate, Plugin.unload, ht, Plugin.stopAll, Plugin.deinitAll]
      exact ⟨_, _, rfl, hu _⟩
  · obtain ⟨m', e, t, _⟩ := C106_rejects m (fun id x f hq' => hq ⟨id, x, f, hq'⟩) (fun h lib hl => hn _ h lib hl)
    exact ⟨false, m', e, fun i h t' hf => hm i h t' (by rw [← t]; exact hf)⟩

theorem loadAll_ok {env : Env} (hn : NoNull env) : ∀ (files : List Str) (m : Manager), Unused m →
    ∃ m', loadAll env files m = .ok () m' ∧ Unused m'
  | [], m, hm => ⟨m, rfl, hm⟩
  | path :: rest, m, hm => by
    obtain ⟨r, m1, e1, u1⟩ := loadTemplate_ok hn path m hm
    obtain ⟨m2, e2, u2⟩ := loadAll_ok hn rest m1 u1
    exact ⟨m2, by simp only [loadAll, e1, e2], u2⟩

theorem loadFrom_ok {env : Env} (hn : NoNull env) : ∀ (ps : List Str) (m : Manager), Unused m →
    (∀ p ∈ ps, Searchable env.fs p) → ∃ m', loadFrom env ps m = .ok () m'
  | [], m, _, _ => ⟨m, rfl⟩
  | p :: ps, m, hm, hs => by
    obtain ⟨names, e⟩ := contents_defined (hs p List.mem_cons_self) Fs.typeFile
    obtain ⟨m1, e1, u1⟩ := loadAll_ok hn (names.map (FsWin.combinePaths p)) m hm
    obtain ⟨m2, e2⟩ := loadFrom_ok hn ps m1 u1 (fun q hq => hs q (List.mem_cons_of_mem _ hq))
    exact ⟨m2, by simp only [loadFrom, e, e1, e2]⟩

theorem loadFrom_ub {env : Env} (hn : NoNull env) (h0 : (0 : UInt8) ∉ env.fs.junkName) : ∀ (ps : List Str) (m : Manager),
    Unused m → (∃ p ∈ ps, ¬ Searchable env.fs p) → loadFrom env ps m = .ub
  | [], _, _, ⟨_, h, _⟩ => by cases h
  | p :: ps, m, hm, ⟨q, hq, hs⟩ => by
    by_cases hp : Searchable env.fs p
    · obtain ⟨names, e⟩ := contents_defined hp Fs.typeFile
      obtain ⟨m1, e1, u1⟩ := loadAll_ok hn (names.map (FsWin.combinePaths p)) m hm
      have hq' : q ∈ ps := by
        rcases List.mem_cons.1 hq with rfl | hq
        · exact absurd hp hs
        · exact hq
      simp only [loadFrom, e, e1]
      exact loadFrom_ub hn h0 ps m1 u1 ⟨q, hq', hs⟩
    · simp only [loadFrom, contents_undefined hp Fs.typeFile h0]

/-- The same environment with other bytes in the memory `FindFirstFile` should have written. -/
def Env.holding (env : Env) (bytes : List UInt8) : Env := { env with fs := { env.fs with junkName := bytes } }

/-- `LoadTemplates` is defined whatever unwritten memory holds exactly if every search path is a directory that can be
searched. -/
theorem C106_defined_iff (env : Env) (m : Manager) (hn : NoNull env) (hm : Unused m) :
    (∀ bytes : List UInt8, bytes.length = 260 → ∃ m', loadTemplates (env.holding bytes) m = .ok () m') ↔
      ∀ p ∈ m.searchPaths, Searchable env.fs p := by
  constructor
  · intro h p hp
    by_cases hs : Searchable env.fs p
    · exact hs
    · obtain ⟨m', e⟩ := h (List.replicate 260 1) List.length_replicate
      have : loadTemplates (env.holding (List.replicate 260 1)) m = .ub :=
        loadFrom_ub (env := env.holding (List.replicate 260 1)) hn
          (by show (0 : UInt8) ∉ List.replicate 260 1; decide) _ m hm ⟨p, hp, hs⟩
      rw [this] at e
      cases e
  · intro h bytes _
    exact loadFrom_ok (env := env.holding bytes) hn _ m hm h

/-- A new manager searches the paths it is given, the directory it takes for that of the executable (C95), the working
directory if that is another one, and `lib` in the working directory. -/
theorem C106_search_order (fs : FsWin.World) (given : List Str) (cwd : Str) (hc : fs.cwd = some cwd)
    (h1 : (0 : UInt8) ∉ cwd) (hl : cwd.length < 1024) :
    ∃ dir, dir = FsWin.getBaseDirectory (FsWin.getPathOfRunningExecutable fs) ∧
      initialPaths fs given = some (given ++ (if cwd = dir then [dir] else [dir, cwd]) ++ [cwd ++ bs "\\lib"]) := by
  refine ⟨_, rfl, ?_⟩
  have e2 := (FsWin.C95_working_directory fs cwd hc h1).1 hl
  have e4 : FsWin.combinePaths cwd (bs "lib") = cwd ++ bs "\\lib" := by
    have : bs "\\lib" = backslash :: bs "lib" := by decide
    simp [FsWin.combinePaths, this]
  unfold initialPaths
  simp only [e2, e4]
  by_cases h : cwd = FsWin.getBaseDirectory (FsWin.getPathOfRunningExecutable fs)
  · simp [← h]
  · simp [h]

/-- So in a working directory without a directory `lib`, loading templates reads memory that was never written and is
undefined for some of its contents. -/
theorem C106_without_lib (env : Env) (given : List Str) (cwd : Str) (m : Manager) (hc : env.fs.cwd = some cwd)
    (h1 : (0 : UInt8) ∉ cwd) (hl : cwd.length < 1024) (hp : initialPaths env.fs given = some m.searchPaths)
    (hlib : ¬ Searchable env.fs (cwd ++ bs "\\lib")) (hn : NoNull env) (hm : Unused m) :
    ∃ bytes : List UInt8, bytes.length = 260 ∧ loadTemplates (env.holding bytes) m = .ub := by
  obtain ⟨dir, _, e⟩ := C106_search_order env.fs given cwd hc h1 hl
  rw [e] at hp
  refine ⟨List.replicate 260 1, List.length_replicate, ?_⟩
  exact loadFrom_ub (env := env.holding (List.replicate 260 1)) hn
    (by show (0 : UInt8) ∉ List.replicate 260 1; decide) _ m hm
    ⟨cwd ++ bs "\\lib", by rw [← Option.some.inj hp]; simp, hlib⟩

/-! ## A case -/

/-- A working directory with two libraries, one from a 32-bit and one from a 64-bit compiler, and no `lib`. -/
def sample : Env :=
  { fs :=
      { attributes := fun p => if p = bs "C:\\d\\plugin_a.dll" ∨ p = bs "C:\\d\\plugin_b.dll" then some 0x20#32 else none
        exists_ := fun p => p = bs "C:\\d\\plugin_a.dll" ∨ p = bs "C:\\d\\plugin_b.dll"
        find := fun p => if p = bs "C:\\d\\*" then some (bs "plugin_a.dll", [bs "plugin_b.dll"]) else none
        self := some (bs "C:\\d\\lamppost.exe"), cwd := some (bs "C:\\d")
        junkName := List.replicate 260 0, junkBuffer := List.replicate 1024 0 }
    load := fun p =>
      if p = bs "C:\\d\\plugin_a.dll" then
        some (1, ⟨fun n => if n = bs "_CreateInfo@0" then some (some (bs "A")) else none,
          fun n => if n = bs "_CreateInstance@64" then some (fun _ => .null) else none⟩)
      else if p = bs "C:\\d\\plugin_b.dll" then
        some (2, ⟨fun n => if n = bs "CreateInfo" then some (some (bs "B")) else none,
          fun n => if n = bs "CreateInstance" then some (fun _ => .null) else none⟩)
      else none
    size := 64 }

/-- A manager with these search paths and nothing loaded (PluginManager.cpp:14-30). -/
def fresh (paths : List Str) : Manager := ⟨paths, none, [], Plugin.noWorld, []⟩

/-- What is left of a run: identifiers and events. -/
def seen : Out Manager Unit → Option (List Str × List Ev)
  | .ok _ m => some (m.templates.map (·.1), m.log)
  | _ => none

example : initialPaths sample.fs [] = some [bs "C:\\d", bs "C:\\d\\lib"] := by decide +kernel
example : seen (loadTemplates sample (fresh [bs "C:\\d", bs "C:\\d\\lib"])) =
    some ([bs "A"], [.opened 1, .opened 2, .closed 2]) := by decide +kernel
example : Qualifies sample (bs "C:\\d\\plugin_a.dll") (bs "A") 1 (fun _ => .null) :=
  ⟨(candidate_iff _ _).1 (by decide +kernel), ⟨_, rfl, by decide +kernel, by
    have : bs "_CreateInstance@" ++ natToStr sample.size = bs "_CreateInstance@64" := by decide +kernel
    rw [this]; rfl⟩, by decide⟩
example (h : Nat) (lib : Lib) (hl : sample.load (untilNul (bs "C:\\d\\plugin_b.dll")) = some (h, lib)) :
    Undecorated lib := by
  have h0 : untilNul (bs "C:\\d\\plugin_b.dll") = bs "C:\\d\\plugin_b.dll" := by decide
  have h1 : bs "C:\\d\\plugin_b.dll" ≠ bs "C:\\d\\plugin_a.dll" := by decide
  rw [h0] at hl
  simp only [sample, h1, if_false, if_true, Option.some.injEq, Prod.mk.injEq] at hl
  obtain ⟨_, rfl⟩ := hl
  refine ⟨fun n hn => ?_, fun n hn => ?_⟩
  · by_cases e : n = bs "CreateInfo"
    · exact e
    · simp [e] at hn
  · by_cases e : n = bs "CreateInstance"
    · exact e
    · simp [e] at hn
example : ¬ Searchable sample.fs (bs "C:\\d" ++ bs "\\lib") ∧ Searchable sample.fs (bs "C:\\d") := by
  unfold Searchable; decide +kernel
example : NoNull sample := by
  intro path h lib hl
  simp only [sample] at hl
  split at hl
  · cases hl; decide
  · split at hl
    · cases hl; decide
    · cases hl
example : Unused (fresh []) := by intro id h t hf; cases hf

end LP.PluginWin
