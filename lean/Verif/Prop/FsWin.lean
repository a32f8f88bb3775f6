import Verif.Lemma.Fs
import Verif.Model.FsWin
/-!
# The Windows branches of the file system helpers (C94, C95)
-/
namespace LP.FsWin
open Fs (rfind_none rfind_append cut_last cstr_eq flatMap_filter typeFile typeDirectory typeAny)

/-! ## C94: directories -/

/-- What exists at a path: `some true` a directory, `some false` something else. -/
def At (w : World) (path : Str) : Option Bool := (w.attributes (untilNul path)).map (fun a => a.getLsbD 4)

theorem bit4 (a : BitVec 32) : (a &&& attrDirectory != 0#32) = a.getLsbD 4 := by
  have h1 : (a &&& attrDirectory).getLsbD 4 = a.getLsbD 4 := by simp [attrDirectory]
  have h2 : ∀ i, i ≠ 4 → (a &&& attrDirectory).getLsbD i = false := by
    intro i hi
    have hz : attrDirectory.getLsbD i = false := by
      by_cases hl : i < 32
      · have : ∀ i, i < 32 → i ≠ 4 → attrDirectory.getLsbD i = false := by decide
        exact this i hl hi
      · exact BitVec.getLsbD_of_ge _ _ (by omega)
    rw [BitVec.getLsbD_and, hz, Bool.and_false]
  cases h : a.getLsbD 4 with
  | true =>
    rw [h] at h1
    have : a &&& attrDirectory ≠ 0#32 := fun e => by rw [e] at h1; simp at h1
    simpa using this
  | false =>
    have : a &&& attrDirectory = 0#32 := by
      apply BitVec.eq_of_getLsbD_eq
      intro i hi
      by_cases h4 : i = 4
      · rw [h4, h1, h]; simp
      · rw [h2 i h4]; simp
    simp [this]

/-- `IsFile` is right. `IsDirectory` also holds of everything that does not exist. -/
theorem C94_kinds (w : World) (path : Str) :
    (isFile w path = true ↔ At w path = some false) ∧
    (isDirectory w path = true ↔ At w path = some true ∨ At w path = none) := by
  simp only [isFile, isDirectory, bit4, attrs, At, cstr_eq]
  cases w.attributes (untilNul path) with
  | none => simp
  | some a => simp

/-- The entries asked for. -/
def Wanted (w : World) (path : Str) (files dirs : Bool) (name : Str) : Bool :=
  name != [dot] && name != [dot, dot] &&
    ((files && At w (path ++ backslash :: name) == some false) || (dirs && At w (path ++ backslash :: name) == some true))

theorem listEntry_eq (w : World) (path : Str) (files dirs : Bool) (name : Str)
    (he : At w (path ++ backslash :: name) ≠ none) :
    listEntry w path (files.toNat + 2 * dirs.toNat) name = if Wanted w path files dirs name then [name] else [] := by
  have e : combinePaths path name = path ++ backslash :: name := by simp [combinePaths]
  have h1 : ((files.toNat + 2 * dirs.toNat) &&& typeFile != 0) = files := by cases files <;> cases dirs <;> decide
  have h2 : ((files.toNat + 2 * dirs.toNat) &&& typeDirectory != 0) = dirs := by cases files <;> cases dirs <;> decide
  have hk := C94_kinds w (path ++ backslash :: name)
  have hd : bs "." = [dot] := by decide
  have hdd : bs ".." = [dot, dot] := by decide
  simp only [listEntry, e, h1, h2, Wanted, hd, hdd]
  obtain ⟨b, ho⟩ : ∃ b, At w (path ++ backslash :: name) = some b := by
    cases ho : At w (path ++ backslash :: name) with
    | none => exact absurd ho he
    | some b => exact ⟨b, rfl⟩
  rw [ho] at hk
  have k1 : isFile w (path ++ backslash :: name) = !b := by
    cases hf : isFile w (path ++ backslash :: name) <;> cases b <;> simp_all
  have k2 : isDirectory w (path ++ backslash :: name) = b := by
    cases hf : isDirectory w (path ++ backslash :: name) <;> cases b <;> simp_all
  have k3 : (At w (path ++ backslash :: name) == some false) = !b := by rw [ho]; cases b <;> rfl
  have k4 : (At w (path ++ backslash :: name) == some true) = b := by rw [ho]; cases b <;> rfl
  simp only [k1, k2, k3, k4]
  by_cases n1 : name = [dot]
  · simp [n1]
  · by_cases n2 : name = [dot, dot]
    · simp [n2]
    · cases b <;> cases files <;> cases dirs <;> simp [n1, n2]

theorem flatMap_congr' {α β : Type} {f g : α → List β} : ∀ {l : List α}, (∀ a ∈ l, f a = g a) → l.flatMap f = l.flatMap g
  | [], _ => rfl
  | a :: l, h => by
    rw [List.flatMap_cons, List.flatMap_cons, h a List.mem_cons_self,
      flatMap_congr' fun b hb => h b (List.mem_cons_of_mem _ hb)]

/-- A directory that can be searched: the listing has exactly the entries of the kinds asked for, without "." and "..",
in the order found. (Of an entry that has vanished meanwhile `IsDirectory` is true.) -/
theorem C94_listing (w : World) (path : Str) (files dirs : Bool) (first : Str) (rest : List Str)
    (hf : w.find (untilNul (path ++ backslash :: [42])) = some (first, rest))
    (he : ∀ name ∈ first :: rest, At w (path ++ backslash :: name) ≠ none) :
    getDirectoryContents w path (files.toNat + 2 * dirs.toNat) = some ((first :: rest).filter (Wanted w path files dirs)) := by
  have e : combinePaths path (bs "*") = path ++ backslash :: [42] := by
    have : bs "*" = [42] := by decide
    simp [combinePaths, this]
  simp only [getDirectoryContents, cstr_eq, e, hf, Option.some.injEq]
  rw [← flatMap_filter]
  exact flatMap_congr' fun name hn => listEntry_eq w path files dirs name (he name hn)

/-- The listing of a path that cannot be searched (it does not exist, say) is made from memory that was never written:
if that happens to be a C string which is not empty, ".", or ".." (and names nothing below the path), it is listed as a
directory. Files are never made up. -/
theorem C94_missing_directory (w : World) (path junk : Str) (z : List UInt8) (hj : w.junkName = junk ++ 0 :: z)
    (h0 : (0 : UInt8) ∉ junk) (hf : w.find (untilNul (path ++ backslash :: [42])) = none)
    (hn : At w (path ++ backslash :: junk) = none) :
    getDirectoryContents w path typeFile = some [] ∧
    ∀ filter, filter = typeDirectory ∨ filter = typeAny →
      getDirectoryContents w path filter =
        some (if junk = [] ∨ junk = [dot] ∨ junk = [dot, dot] then [] else [junk]) := by
  have e : combinePaths path (bs "*") = path ++ backslash :: [42] := by
    have : bs "*" = [42] := by decide
    simp [combinePaths, this]
  have e2 : combinePaths path junk = path ++ backslash :: junk := by simp [combinePaths]
  have hk := C94_kinds w (path ++ backslash :: junk)
  rw [hn] at hk
  have k1 : isFile w (path ++ backslash :: junk) = false := by
    cases h : isFile w (path ++ backslash :: junk)
    · rfl
    · exact absurd (hk.1.1 h) (by simp)
  have k2 : isDirectory w (path ++ backslash :: junk) = true := hk.2.2 (.inr rfl)
  have hd : bs "." = [dot] := by decide
  have hdd : bs ".." = [dot, dot] := by decide
  have key : ∀ filter, getDirectoryContents w path filter =
      some (if junk = [] ∨ junk = [dot] ∨ junk = [dot, dot] then []
        else if (filter &&& typeDirectory) != 0 then [junk] else []) := by
    intro filter
    simp only [getDirectoryContents, cstr_eq, e, hf, hj, untilNul_cut _ h0]
    cases hjj : junk with
    | nil => simp
    | cons c s =>
      have hc : c ≠ 0 := fun hc => h0 (by rw [hjj, hc]; exact List.mem_cons_self)
      rw [hjj] at e2 k1 k2
      simp only [List.cons_append, List.head?_cons, Option.some.injEq, hc, if_false, List.mem_cons,
        List.mem_append, true_or, or_true, if_true, listEntry, e2, k1, k2, Bool.and_false, Bool.and_true, hd, hdd]
      by_cases n1 : c :: s = [dot]
      · simp [n1]
      · by_cases n2 : c :: s = [dot, dot]
        · simp [n2]
        · simp [n1, n2]
  refine ⟨?_, ?_⟩
  · rw [key]
    simp [show (typeFile &&& typeDirectory) = 0 by decide]
  · rintro filter (rfl | rfl) <;> rw [key]
    · simp [show (typeDirectory &&& typeDirectory) = 2 by decide]
    · simp [show (typeAny &&& typeDirectory) = 2 by decide]

/-- A directory with one library and one subdirectory; the memory of the search result holds an old name. -/
def sample : World :=
  { attributes := fun p => if p = bs "C:\\d\\x.dll" then some 0x20#32
      else if p = bs "C:\\d\\." ∨ p = bs "C:\\d\\sub" then some 0x10#32 else none
    exists_ := fun p => p = bs "C:\\d"
    find := fun p => if p = bs "C:\\d\\*" then some (bs ".", [bs "sub", bs "x.dll"]) else none
    self := some (bs "C:\\d\\lamppost.exe"), cwd := some (bs "C:\\d")
    junkName := bs "old" ++ 0 :: bs "name", junkBuffer := List.replicate 1024 7 }

example : getDirectoryContents sample (bs "C:\\d") typeFile = some [bs "x.dll"] ∧
    getDirectoryContents sample (bs "C:\\d") typeDirectory = some [bs "sub"] ∧
    getDirectoryContents sample (bs "C:\\e") typeAny = some [bs "old"] ∧
    sample.find (untilNul (bs "C:\\d" ++ backslash :: [42])) = some (bs ".", [bs "sub", bs "x.dll"]) ∧
    (∀ name ∈ [bs ".", bs "sub", bs "x.dll"], At sample (bs "C:\\d" ++ backslash :: name) ≠ none) ∧
    sample.find (untilNul (bs "C:\\e" ++ backslash :: [42])) = none ∧
    At sample (bs "C:\\e" ++ backslash :: bs "old") = none := by decide +kernel

/-! ## C95: paths -/

/-- Paths are combined with a '\\'. -/
theorem C95_combined (r f : Str) : combinePaths r f = r ++ bs "\\" ++ f := by
  have : bs "\\" = [backslash] := by decide
  rw [this]; simp [combinePaths]

/-- Splitting and combining are inverse to each other, with '\\' as the only separator. -/
theorem C95_parts_of_combined (r f : Str) (h : backslash ∉ f) :
    getFilename (combinePaths r f) = f ∧ getBaseDirectory (combinePaths r f) = r := by
  have e : combinePaths r f = r ++ backslash :: f := by simp [combinePaths]
  rw [e]
  constructor
  · simp only [getFilename, rfind_append r f h]
    split
    · simp [List.drop_append]
    · rename_i hl
      simp at hl
      subst hl; rfl
  · simp [getBaseDirectory, rfind_append r f h, Str.substr0]

/-- Every path with a '\\' is the combination of its directory and its file name; a path without (one written with '/',
say) has no file name, no directory and no extension. -/
theorem C95_recombine (p : Str) :
    (backslash ∈ p → combinePaths (getBaseDirectory p) (getFilename p) = p) ∧
    (backslash ∉ p → getFilename p = [] ∧ getBaseDirectory p = [] ∧ getFileExtension p = []) := by
  constructor
  · intro h
    obtain ⟨a, b, e, hb⟩ := cut_last h
    have : p = combinePaths a b := by simp [combinePaths, e]
    rw [this, (C95_parts_of_combined a b hb).1, (C95_parts_of_combined a b hb).2]
  · intro h
    simp [getFilename, getBaseDirectory, getFileExtension, rfind_none.2 h]

/-- The extension is what follows the last dot of the file name. -/
theorem C95_extension (p : Str) :
    (dot ∉ getFilename p → getFileExtension p = []) ∧
    ∀ a e, getFilename p = a ++ dot :: e → dot ∉ e → getFileExtension p = e := by
  constructor
  · intro h
    simp [getFileExtension, rfind_none.2 h]
  · intro a e h he
    simp [getFileExtension, h, rfind_append a e he]

example : backslash ∉ bs "x.dll" ∧ backslash ∈ bs "C:\\d\\x.dll" ∧ backslash ∉ bs "C:/d/x.dll" ∧
    getFilename (bs "C:\\d.e\\x.y.dll") = bs "x.y" ++ dot :: bs "dll" ∧
    getFileExtension (bs "C:\\d.e\\x.y.dll") = bs "dll" ∧ getFilename (bs "C:/d/x.dll") = [] := by decide

/-- The path of the executable is never returned: the result always is the whole buffer of 1024 bytes, the path (cut to
1023 bytes), a NUL, and whatever was in memory. -/
theorem C95_executable_path (w : World) (target : Str) (h : w.self = some target) (h0 : (0 : UInt8) ∉ target)
    (hb : w.junkBuffer.length = 1024) :
    (getPathOfRunningExecutable w).length = 1024 ∧ untilNul (getPathOfRunningExecutable w) = target.take 1023 ∧
      getPathOfRunningExecutable w ≠ target := by
  have e : getPathOfRunningExecutable w =
      target.take 1023 ++ 0 :: w.junkBuffer.drop (min target.length 1023 + 1) := by
    simp [getPathOfRunningExecutable, h]
  have h1 : (0 : UInt8) ∉ target.take 1023 := fun hm => h0 (List.mem_of_mem_take hm)
  refine ⟨?_, ?_, ?_⟩
  · rw [e]; simp [hb]; omega
  · rw [e, untilNul_cut _ h1]
  · intro he
    apply h0
    rw [← he, e]
    simp

/-- So its directory, where plugins are searched, is right exactly if the bytes left over in the buffer have no '\\'
(for a path that fits). -/
theorem C95_executable_directory (w : World) (dir name : Str) (h : w.self = some (dir ++ backslash :: name))
    (hn : backslash ∉ name) (hl : (dir ++ backslash :: name).length < 1024) :
    getBaseDirectory (getPathOfRunningExecutable w) = dir ↔
      backslash ∉ w.junkBuffer.drop ((dir ++ backslash :: name).length + 1) := by
  have e : getPathOfRunningExecutable w =
      dir ++ backslash :: (name ++ 0 :: w.junkBuffer.drop ((dir ++ backslash :: name).length + 1)) := by
    simp only [getPathOfRunningExecutable, h]
    rw [List.take_of_length_le (by omega), Nat.min_eq_left (by omega)]
    simp
  generalize w.junkBuffer.drop ((dir ++ backslash :: name).length + 1) = z at e ⊢
  rw [e]
  have hb0 : backslash ≠ 0 := by decide
  by_cases hz : backslash ∈ z
  · refine ⟨fun hd => ?_, fun hn' => absurd hz hn'⟩
    exfalso
    obtain ⟨a, b, rfl, hb⟩ := cut_last hz
    have e2 : dir ++ backslash :: (name ++ 0 :: (a ++ backslash :: b)) =
        (dir ++ backslash :: (name ++ 0 :: a)) ++ backslash :: b := by simp
    rw [e2] at hd
    simp only [getBaseDirectory, rfind_append _ b hb, Str.substr0, List.take_left'] at hd
    have := congrArg List.length hd
    simp at this
  · refine ⟨fun _ => hz, fun _ => ?_⟩
    have hm : backslash ∉ name ++ 0 :: z := by
      simp only [List.mem_append, List.mem_cons, not_or]
      exact ⟨hn, hb0, hz⟩
    simp [getBaseDirectory, rfind_append _ _ hm, Str.substr0]

/-- The working directory is exact if it is shorter than the buffer; otherwise the buffer is read although it was never
written, even past its end if there is no NUL in it. -/
theorem C95_working_directory (w : World) (p : Str) (h : w.cwd = some p) (h0 : (0 : UInt8) ∉ p) :
    (p.length < 1024 → getWorkingDirectory w = some p) ∧
    (1024 ≤ p.length → getWorkingDirectory w = if 0 ∈ w.junkBuffer then some (untilNul w.junkBuffer) else none) := by
  constructor
  · intro hl
    simp only [getWorkingDirectory, h]
    rw [if_pos (by omega), cstr_eq, untilNul_plain h0]
  · intro hl
    simp only [getWorkingDirectory, h, cstr_eq]
    rw [if_neg (by omega)]

example : sample.self = some (bs "C:\\d" ++ backslash :: bs "lamppost.exe") ∧ backslash ∉ bs "lamppost.exe" ∧
    sample.junkBuffer.length = 1024 ∧ getBaseDirectory (getPathOfRunningExecutable sample) = bs "C:\\d" ∧
    getBaseDirectory (getPathOfRunningExecutable { sample with junkBuffer := List.replicate 1024 backslash }) ≠ bs "C:\\d" ∧
    getWorkingDirectory sample = some (bs "C:\\d") := by decide +kernel

end LP.FsWin
