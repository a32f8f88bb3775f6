import Verif.Lemma.Fs
/-!
# Paths and directories (C66, C67, C68, C74)
-/
namespace LP.Fs

/-! ## C66 -/

/-- Paths are combined with a '/'. -/
theorem C66_combined (r f : Str) : combinePaths r f = r ++ bs "/" ++ f := by
  have : bs "/" = [slash] := by decide
  rw [this]; simp [combinePaths]

/-- The file name of a combined path is the second part, its directory the first, provided the second has no '/'. -/
theorem C66_parts_of_combined (r f : Str) (h : slash ∉ f) :
    getFilename (combinePaths r f) = f ∧ getBaseDirectory (combinePaths r f) = r := by
  have e : combinePaths r f = r ++ slash :: f := by simp [combinePaths]
  rw [e]
  constructor
  · simp only [getFilename, rfind_append r f h]
    split
    · simp [List.drop_append]
    · rename_i hl
      simp at hl
      subst hl; rfl
  · simp [getBaseDirectory, rfind_append r f h, Str.substr0]

/-- The condition is needed: of a second part with '/' only what follows its last '/' is the file name. -/
theorem C66_slash_in_name (r f : Str) (h : slash ∈ f) : getFilename (combinePaths r f) ≠ f := by
  obtain ⟨a, b, e, hb⟩ := cut_last h
  have : combinePaths r f = combinePaths (r ++ slash :: a) b := by simp [combinePaths, e]
  rw [this, (C66_parts_of_combined _ b hb).1, e]
  intro he
  have := congrArg List.length he
  simp at this
  omega

/-- Every path with a '/' is the combination of its directory and its file name. -/
theorem C66_recombine (p : Str) (h : slash ∈ p) : combinePaths (getBaseDirectory p) (getFilename p) = p := by
  obtain ⟨a, b, e, hb⟩ := cut_last h
  have : p = combinePaths a b := by simp [combinePaths, e]
  rw [this, (C66_parts_of_combined a b hb).1, (C66_parts_of_combined a b hb).2]

/-- The file name never contains a '/'. -/
theorem C66_filename_no_slash (p : Str) : slash ∉ getFilename p := by
  by_cases h : slash ∈ p
  · obtain ⟨a, b, e, hb⟩ := cut_last h
    have : p = combinePaths a b := by simp [combinePaths, e]
    rw [this, (C66_parts_of_combined a b hb).1]
    exact hb
  · simp [getFilename, rfind_none.2 h]

/-- A path without '/' has no file name (not itself), no directory and no extension. -/
theorem C66_no_slash (p : Str) (h : slash ∉ p) : getFilename p = [] ∧ getBaseDirectory p = [] ∧ getFileExtension p = [] := by
  simp [getFilename, getBaseDirectory, getFileExtension, rfind_none.2 h]

example : slash ∉ bs "libfoo.so" ∧ slash ∈ bs "/usr/lib" ∧ getFilename (bs "/usr/lib/libfoo.so") = bs "libfoo.so" ∧
    getBaseDirectory (bs "/usr/lib/libfoo.so") = bs "/usr/lib" ∧ getFilename (bs "libfoo.so") = [] ∧ getFilename (bs "/usr/") = [] := by decide

/-! ## C67 -/

/-- The extension is what follows the last dot of the file name; without a dot there is none. -/
theorem C67_extension (p : Str) :
    (dot ∉ getFilename p → getFileExtension p = []) ∧
    ∀ a e, getFilename p = a ++ dot :: e → dot ∉ e → getFileExtension p = e := by
  constructor
  · intro h
    simp [getFileExtension, rfind_none.2 h]
  · intro a e h he
    simp [getFileExtension, h, rfind_append a e he]

/-- Only the file name matters: directories with dots change nothing. -/
theorem C67_directory_irrelevant (r r' f : Str) (h : slash ∉ f) :
    getFileExtension (combinePaths r f) = getFileExtension (combinePaths r' f) := by
  simp [getFileExtension, (C66_parts_of_combined _ f h).1]

/-- The extension contains neither a dot nor a '/'. -/
theorem C67_extension_plain (p : Str) : dot ∉ getFileExtension p ∧ slash ∉ getFileExtension p := by
  by_cases h : dot ∈ getFilename p
  · obtain ⟨a, e, h1, h2⟩ := cut_last h
    rw [(C67_extension p).2 a e h1 h2]
    refine ⟨h2, fun hs => C66_filename_no_slash p ?_⟩
    rw [h1]; simp [hs]
  · rw [(C67_extension p).1 h]; simp

example : getFileExtension (bs "/a.b/c.tar.so") = bs "so" ∧ getFileExtension (bs "/a.b/c") = [] ∧
    getFileExtension (bs "/a/.so") = bs "so" ∧ getFileExtension (bs "/a/b.") = [] ∧
    getFilename (bs "/a.b/c.tar.so") = bs "c.tar" ++ dot :: bs "so" := by decide

/-! ## C68 -/

/-- What the documentation of the filter promises: the entries of the kinds asked for. -/
def Wanted (w : World) (path : Str) (files dirs : Bool) (name : Str) : Bool :=
  (files && w.stat (untilNul (path ++ slash :: name)) == some .file) ||
    (dirs && w.stat (untilNul (path ++ slash :: name)) == some .directory)

theorem listEntry_odd (w : World) (path : Str) (filter : Nat) (hf : (filter &&& 1 != 0) = true) (name : Str) :
    listEntry w path filter name = if Wanted w path true true name then [name] else [] := by
  have e : combinePaths path name = path ++ slash :: name := by simp [combinePaths]
  obtain ⟨o, ho⟩ : ∃ o, w.stat (untilNul (path ++ slash :: name)) = o := ⟨_, rfl⟩
  simp only [listEntry, isFile, isDirectory, typeFile, Wanted, cstr_eq, e, ho, hf]
  cases o with
  | none => simp
  | some k => cases k <;> simp

/-- Asked for files, or for anything, the listing has the regular files and the directories, in directory order
(including "." and ".."). -/
theorem C68_files_and_directories (w : World) (path : Str) (filter : Nat) (hf : filter = typeFile ∨ filter = typeAny)
    (names : List Str) (hn : w.entries (untilNul path) = some names) :
    getDirectoryContents w path filter = names.filter (Wanted w path true true) := by
  have : (filter &&& 1 != 0) = true := by rcases hf with rfl | rfl <;> decide
  simp only [getDirectoryContents, cstr_eq, hn]
  rw [← flatMap_filter]
  congr 1
  funext name
  exact listEntry_odd w path filter this name

/-- A path that goes on after a NUL byte: the directory before it is opened, but every entry is judged by what that
directory is, so that all its entries are listed, whatever they are. -/
theorem C68_nul_in_path (w : World) (path rest : Str) (h0 : (0 : UInt8) ∉ path) (filter : Nat)
    (hf : filter = typeFile ∨ filter = typeAny) (names : List Str) (hn : w.entries path = some names)
    (hd : w.stat path = some .directory) : getDirectoryContents w (path ++ 0 :: rest) filter = names := by
  rw [C68_files_and_directories w _ filter hf names (by rw [untilNul_cut _ h0]; exact hn)]
  refine List.filter_eq_self.2 fun name _ => ?_
  have e : (path ++ 0 :: rest) ++ slash :: name = path ++ 0 :: (rest ++ slash :: name) := by simp
  simp [Wanted, e, untilNul_cut _ h0, hd]

/-- Asked for directories the listing is always empty. -/
theorem C68_directories_never_listed (w : World) (path : Str) : getDirectoryContents w path typeDirectory = [] := by
  have : ∀ name, listEntry w path typeDirectory name = [] := by
    intro name
    have : (typeDirectory &&& typeFile) = 0 := by decide
    simp [listEntry, this]
  simp only [getDirectoryContents]
  split
  · rfl
  · simp [List.flatMap_eq_nil_iff, this]

/-- So asking for files gives what was meant exactly when the directory has no subdirectory, which no directory with
"." has. -/
theorem C68_file_filter_right_iff (w : World) (path : Str) (names : List Str) (hn : w.entries (untilNul path) = some names) :
    getDirectoryContents w path typeFile = names.filter (Wanted w path true false) ↔
      ∀ name ∈ names, w.stat (untilNul (path ++ slash :: name)) ≠ some .directory := by
  rw [C68_files_and_directories w path typeFile (.inl rfl) names hn]
  induction names generalizing w with
  | nil => simp
  | cons x l ih =>
    have ih' := ih (w := { w with entries := fun _ => some l }) rfl
    have eW : ∀ f d, Wanted { w with entries := fun _ => some l } path f d = Wanted w path f d := fun _ _ => rfl
    simp only [eW] at ih'
    have len : (l.filter (Wanted w path true false)).length ≤ (l.filter (Wanted w path true true)).length := by
      clear ih ih' hn eW
      induction l with
      | nil => simp
      | cons y l ih =>
        simp only [List.filter_cons]
        cases hk : w.stat (untilNul (path ++ slash :: y)) with
        | none => simp only [Wanted, hk]; simpa using ih
        | some k =>
          cases k <;> simp only [Wanted, hk] <;> simp <;> omega
    simp only [List.mem_cons, forall_eq_or_imp]
    rw [← ih']
    simp only [List.filter_cons]
    cases hk : w.stat (untilNul (path ++ slash :: x)) with
    | none => simp [Wanted, hk]
    | some k =>
      cases k with
      | file => simp [Wanted, hk]
      | other => simp [Wanted, hk]
      | directory =>
        have h1 : Wanted w path true true x = true := by simp [Wanted, hk]
        have h2 : Wanted w path true false x = false := by simp [Wanted, hk]
        simp only [h1, h2, if_true, ne_eq, not_true_eq_false, false_and, iff_false]
        intro e
        have := congrArg List.length e
        simp at this
        omega

/-- A path that cannot be opened gives an empty list, not an error. -/
theorem C68_unreadable_is_empty (w : World) (path : Str) (filter : Nat) (hn : w.entries (untilNul path) = none) :
    getDirectoryContents w path filter = [] := by simp [getDirectoryContents, cstr_eq, hn]

/-- A directory with one library and one subdirectory. -/
def sample : World :=
  { stat := fun p => if p = bs "/d/x.so" then some .file else if p = bs "/d" ∨ p = bs "/d/." ∨ p = bs "/d/sub" then some .directory else none
    exists_ := fun p => p = bs "/d" ∨ p = bs "/d/x.so"
    entries := fun p => if p = bs "/d" then some [bs ".", bs "sub", bs "x.so", bs "dangling"] else none
    self := some (bs "/usr/bin/lamppost"), cwd := some (bs "/home") }

example : getDirectoryContents sample (bs "/d") typeFile = [bs ".", bs "sub", bs "x.so"] ∧
    getDirectoryContents sample (bs "/d") typeAny = [bs ".", bs "sub", bs "x.so"] ∧
    getDirectoryContents sample (bs "/d") typeDirectory = [] ∧ getDirectoryContents sample (bs "/e") typeAny = [] ∧
    sample.entries (untilNul (bs "/d")) = some [bs ".", bs "sub", bs "x.so", bs "dangling"] := by decide

example : (0 : UInt8) ∉ bs "/d" ∧ sample.entries (bs "/d") = some [bs ".", bs "sub", bs "x.so", bs "dangling"] ∧
    sample.stat (bs "/d") = some .directory ∧
    getDirectoryContents sample (bs "/d" ++ 0 :: bs "/z") typeFile = [bs ".", bs "sub", bs "x.so", bs "dangling"] := by
  decide

/-! ## C74 -/

/-- The path of the executable is the link target cut to 1023 bytes: exact for shorter paths, silently cut for longer
ones; if the link cannot be read the function reads an uninitialised buffer. -/
theorem C74_executable_path (w : World) :
    (w.self = none → getPathOfRunningExecutable w = none) ∧
    ∀ target, w.self = some target → (0 : UInt8) ∉ target → getPathOfRunningExecutable w = some (target.take 1023) := by
  constructor
  · intro h; simp [getPathOfRunningExecutable, h]
  · intro t h h0
    simp only [getPathOfRunningExecutable, h, List.length_take, List.take_take, Option.some.injEq]
    have e : min (min (min 1024 t.length) 1023) 1024 = min 1023 t.length := by omega
    rw [e, List.take_eq_take_min (i := 1023), cstr_eq, untilNul_plain]
    exact fun hm => h0 (List.mem_of_mem_take hm)

/-- The working directory is exact whenever it is shorter than the buffer, and empty otherwise or on failure. -/
theorem C74_working_directory (w : World) :
    (w.cwd = none → getWorkingDirectory w = []) ∧
    ∀ p, w.cwd = some p → (0 : UInt8) ∉ p → getWorkingDirectory w = if p.length < 1024 then p else [] := by
  constructor
  · intro h; simp [getWorkingDirectory, h]
  · intro p h h0
    simp only [getWorkingDirectory, h, cstr_eq, untilNul_plain h0]
    by_cases hl : p.length < 1024
    · rw [if_pos (by omega), if_pos hl]
    · rw [if_neg (by omega), if_neg hl]

example : getPathOfRunningExecutable sample = some (bs "/usr/bin/lamppost") ∧ getWorkingDirectory sample = bs "/home" ∧
    (0 : UInt8) ∉ bs "/usr/bin/lamppost" := by decide +kernel

end LP.Fs
