import Verif.Prop.Plugin
import Verif.Prop.PluginManager
/-!
# Where templates are found (C96)
-/
namespace LP.Plugin

/-- The directory part of a path: what stands before its last '/', nothing if there is none. -/
def DirectoryOf (path dir : Str) : Prop := (∃ name, path = dir ++ slash :: name ∧ slash ∉ name) ∨ (slash ∉ path ∧ dir = [])

/-- A new manager searches, in this order, the paths it is given, the directory of the executable, the working directory
if that is another one, and `lib` in the working directory. (For paths that fit in the buffers, C74.) -/
theorem C96_search_order (fs : Fs.World) (given : List Str) (exe cwd dir : Str) (he : fs.self = some exe)
    (hc : fs.cwd = some cwd) (h0 : (0 : UInt8) ∉ exe) (h1 : (0 : UInt8) ∉ cwd) (hle : exe.length < 1024)
    (hlc : cwd.length < 1024) (hd : DirectoryOf exe dir) :
    initialPaths fs given = some (given ++ (if cwd = dir then [dir] else [dir, cwd]) ++ [cwd ++ bs "/lib"]) := by
  have e1 := (Fs.C74_executable_path fs).2 exe he h0
  rw [List.take_of_length_le (by omega)] at e1
  have e2 := (Fs.C74_working_directory fs).2 cwd hc h1
  rw [if_pos hlc] at e2
  have e3 : Fs.getBaseDirectory exe = dir := by
    rcases hd with ⟨name, rfl, hn⟩ | ⟨hn, rfl⟩
    · have := (Fs.C66_parts_of_combined dir name hn).2
      simpa [Fs.combinePaths] using this
    · exact (Fs.C66_no_slash exe hn).2.1
  have e4 : Fs.combinePaths cwd (bs "lib") = cwd ++ bs "/lib" := by
    have : bs "/lib" = slash :: bs "lib" := by decide
    simp [Fs.combinePaths, this]
  unfold initialPaths
  rw [e1]
  simp only [e2, e3, e4]
  by_cases h : cwd = dir
  · simp [h]
  · simp [h]

/-- If the link to the executable cannot be read the constructor is undefined. -/
theorem C96_no_executable (fs : Fs.World) (given : List Str) (h : fs.self = none) : initialPaths fs given = none := by
  unfold initialPaths
  rw [(Fs.C74_executable_path fs).1 h]

theorem Qualifies.unique {env : Env} {path id id' : Str} {x x' : Nat} {f f' : Str → Made}
    (h : Qualifies env path id x f) (h' : Qualifies env path id' x' f') : id = id' ∧ x = x' ∧ f = f' := by
  obtain ⟨lib, e1, e2, e3⟩ := h.openable
  obtain ⟨lib', e1', e2', e3'⟩ := h'.openable
  rw [e1] at e1'
  cases e1'
  rw [e2] at e2'
  rw [e3] at e3'
  cases e2'; cases e3'
  exact ⟨rfl, rfl, rfl⟩

/-- What one `LoadTemplate` does to the templates. -/
theorem loadTemplate_templates {env : Env} {path : Str} {m m' : Manager} {r : Bool}
    (h : loadTemplate env path m = .ok r m') :
    ((∀ id x f, ¬ Qualifies env path id x f) ∧ m'.templates = m.templates) ∨
    ∃ id x f, Qualifies env path id x f ∧ m'.templates = m.templates.insert id (x, ⟨id, some f, []⟩) := by
  by_cases hq : ∃ id x f, Qualifies env path id x f
  · obtain ⟨id, x, f, hq⟩ := hq
    refine .inr ⟨id, x, f, hq, ?_⟩
    have hc := (candidate_iff env.fs path).2 ⟨hq.exist, hq.named⟩
    obtain ⟨lib, e1, e2, e3⟩ := hq.openable
    have hid : id.isEmpty = false := by
      cases hid : id with
      | nil => exact absurd hid hq.identified
      | cons _ _ => rfl
    unfold loadTemplate useLibrary at h
    rw [Fs.cstr_eq] at h
    simp only [hc, if_true, e1, e2, e3, hid] at h
    simp only [storeTemplate, Bool.false_eq_true, if_false] at h
    split at h
    · cases h; rfl
    · split at h <;> cases h
      rfl
  · rcases loadTemplate_effect h with ⟨ht, _⟩ | ⟨id, x, f, l, hq', _⟩
    · exact .inl ⟨fun id x f hq' => hq ⟨id, x, f, hq'⟩, ht⟩
    · exact absurd ⟨id, x, f, hq'⟩ hq

/-- The last of `files` that qualifies as template `id`, with what opening it gives. -/
def LastFor (env : Env) (files : List Str) (id : Str) (x : Nat) (f : Str → Made) : Prop :=
  ∃ before path after, files = before ++ path :: after ∧ Qualifies env path id x f ∧
    ∀ q ∈ after, ∀ x' f', ¬ Qualifies env q id x' f'

theorem loadAll_templates {env : Env} : ∀ {files : List Str} {m m' : Manager}, loadAll env files m = .ok () m' →
    ∀ id : Str, (∃ x f, LastFor env files id x f ∧ m'.templates.find id = some (x, ⟨id, some f, []⟩)) ∨
      ((∀ q ∈ files, ∀ x f, ¬ Qualifies env q id x f) ∧ m'.templates.find id = m.templates.find id)
  | [], m, m', h, id => by
    cases h
    exact .inr ⟨fun _ hq => (by cases hq), rfl⟩
  | path :: rest, m, m', h, id => by
    unfold loadAll at h
    split at h
    · rename_i r m1 h1
      rcases loadAll_templates h id with ⟨x, f, ⟨b, p, a, e, hq, ha⟩, hf⟩ | ⟨hno, hf⟩
      · exact .inl ⟨x, f, ⟨path :: b, p, a, by rw [e]; rfl, hq, ha⟩, hf⟩
      · rcases loadTemplate_templates h1 with ⟨hnq, ht⟩ | ⟨id', x', f', hq', ht⟩
        · refine .inr ⟨fun q hq x f => ?_, by rw [hf, ht]⟩
          rcases List.mem_cons.1 hq with rfl | hq
          · exact hnq id x f
          · exact hno q hq x f
        · by_cases hid : id' = id
          · subst hid
            refine .inl ⟨x', f', ⟨[], path, rest, rfl, hq', fun q hq => hno q hq⟩, ?_⟩
            rw [hf, ht]; simp
          · refine .inr ⟨fun q hq x f hqq => ?_, ?_⟩
            · rcases List.mem_cons.1 hq with rfl | hq
              · exact hid (hq'.unique hqq).1
              · exact hno q hq x f hqq
            · rw [hf, ht, Dict.find_insert_ne hid]
    · cases h
    · cases h
    · cases h

/-- The files that are looked at, in order: of every search path the entries that are files (or directories, C68), with
the search path in front. -/
def Looked (fs : Fs.World) : List Str → List Str
  | [] => []
  | p :: ps => (((fs.entries (untilNul p)).getD []).filter (Fs.Wanted fs p true true)).map (fun name => p ++ slash :: name) ++
      Looked fs ps

theorem templateFiles_looked (env : Env) (paths : List Str) : templateFiles env paths = Looked env.fs paths := by
  induction paths with
  | nil => rfl
  | cons p ps ih =>
    have e : Fs.combinePaths p = fun name => p ++ slash :: name := by
      funext name; simp [Fs.combinePaths]
    have e2 : Fs.getDirectoryContents env.fs p Fs.typeFile =
        ((env.fs.entries (untilNul p)).getD []).filter (Fs.Wanted env.fs p true true) := by
      cases hn : env.fs.entries (untilNul p) with
      | none => rw [Fs.C68_unreadable_is_empty env.fs p _ hn]; rfl
      | some names => exact Fs.C68_files_and_directories env.fs p _ (.inl rfl) names hn
    rw [templateFiles, List.flatMap_cons, Looked, ← ih, e, e2]
    rfl

/-- After `LoadTemplates` of a manager without templates there is a template for an identifier exactly if a file in the
search paths qualifies for it, and it is that of the last such file: a later search path overrides an earlier one. -/
theorem C96_last_wins {env : Env} {m m' : Manager} (hm : m.templates = []) (h : loadTemplates env m = .ok () m')
    (id : Str) (x : Nat) (t : Template) :
    m'.templates.find id = some (x, t) ↔ ∃ f, LastFor env (Looked env.fs m.searchPaths) id x f ∧ t = ⟨id, some f, []⟩ := by
  unfold loadTemplates at h
  rw [templateFiles_looked] at h
  rcases loadAll_templates h id with ⟨x', f', hl, hf⟩ | ⟨hno, hf⟩
  · rw [hf]
    constructor
    · intro e
      cases e
      exact ⟨f', hl, rfl⟩
    · rintro ⟨f, hl', rfl⟩
      have : x' = x ∧ f' = f := by
        obtain ⟨b, p, a, e, hq, ha⟩ := hl
        obtain ⟨b', p', a', e', hq', ha'⟩ := hl'
        rw [e] at e'
        rcases List.append_eq_append_iff.1 e' with ⟨c, rfl, hc⟩ | ⟨c, rfl, hc⟩
        · cases c with
          | nil =>
            simp at hc
            obtain ⟨rfl, rfl⟩ := hc
            exact (hq.unique hq').2
          | cons y c =>
            simp at hc
            obtain ⟨rfl, rfl⟩ := hc
            exact absurd hq' (ha p' (by simp) _ _)
        · cases c with
          | nil =>
            simp at hc
            obtain ⟨rfl, rfl⟩ := hc
            exact (hq.unique hq').2
          | cons y c =>
            simp at hc
            obtain ⟨rfl, rfl⟩ := hc
            exact absurd hq (ha' p (by simp) _ _)
      rw [this.1, this.2]
  · rw [hf, hm]
    constructor
    · intro e; cases e
    · rintro ⟨f, ⟨b, p, a, e, hq, _⟩, _⟩
      exact absurd hq (hno p (by rw [e]; simp) _ _)

/-- The same plugin in the directory of the executable and in `lib` of the working directory. -/
def twoPlaces : Env where
  fs := ⟨fun _ => some .file, fun _ => true,
    fun p => if p = bs "/opt" ∨ p = bs "/home/lib" then some [bs "libplugin_a.so", bs "readme"] else none,
    some (bs "/opt/lamppost"), some (bs "/home")⟩
  dlopen := fun p =>
    if p = bs "/opt/libplugin_a.so" then some (1, ⟨some (some (bs "A")), some (fun _ => .object ⟨none, none⟩)⟩)
    else if p = bs "/home/lib/libplugin_a.so" then some (2, ⟨some (some (bs "A")), some (fun _ => .object ⟨none, none⟩)⟩)
    else none

/-- The one in `lib` is used, and the library of the other one stays open (C61). -/
example : initialPaths twoPlaces.fs [] = some [bs "/opt", bs "/home", bs "/home/lib"] ∧
    DirectoryOf (bs "/opt/lamppost") (bs "/opt") ∧
    (match loadTemplates twoPlaces (emptyManager [bs "/opt", bs "/home", bs "/home/lib"] none freshWorld) with
      | .ok _ m => some (m.templates.map (fun x => (x.1, x.2.1)), m.log)
      | _ => none) = some ([(bs "A", 2)], [.opened 1, .opened 2]) :=
  ⟨by decide +kernel, .inl ⟨bs "lamppost", by decide, by decide⟩, by decide +kernel⟩

end LP.Plugin
