import Verif.Model.Fs
/-!
# Filesystem helpers (src/lamppost/Filesystem.cpp), Windows branch

Assumed of Windows: `GetFileAttributesA` returns `INVALID_FILE_ATTRIBUTES` (all bits set) if it fails;
`GetModuleFileName` writes as much of the path as fits and a terminator, and returns 0 only on failure;
`GetCurrentDirectory` returns the length, or, if the buffer is too small, the size needed (not 0) without writing.
Bytes of a buffer that were never written are a parameter: reading them is an error in itself, the results say what
follows for every value they may have. `none` is undefined behaviour (a read past the end of an array).
-/
namespace LP.FsWin
open Fs (cstr typeFile typeDirectory typeAny)

/-- The separator of the Windows branches (Filesystem.cpp:177, 192, 210). -/
def backslash : UInt8 := 92

/-- Windows as seen by the calls of Filesystem.cpp: the attributes of existing paths, `PathFileExists`, the names that
`FindFirstFile` and `FindNextFile` return for a pattern (`none`: `FindFirstFile` fails), the path of the executable, the
working directory, and what was in memory where `FindData.cFileName` (260 bytes) and `buffer` (1024 bytes) are. A name
that is found is not empty and has no NUL byte. Simplification: the file system does not change during a call. -/
structure World where
  attributes : Str → Option (BitVec 32)
  exists_ : Str → Bool
  find : Str → Option (Str × List Str)
  self : Option Str
  cwd : Option Str
  junkName : List UInt8
  junkBuffer : List UInt8

/-- `GetFileAttributesA` (Filesystem.cpp:11, 33). -/
def attrs (w : World) (path : Str) : BitVec 32 := (w.attributes (cstr path)).getD 0xffffffff#32

/-- `FILE_ATTRIBUTE_DIRECTORY` (used in Filesystem.cpp:13, 35). -/
def attrDirectory : BitVec 32 := 0x10#32

/-- `IsDirectory` (Filesystem.cpp:10-16). -/
def isDirectory (w : World) (path : Str) : Bool := attrs w path &&& attrDirectory != 0#32

/-- `IsFile` (Filesystem.cpp:32-38). -/
def isFile (w : World) (path : Str) : Bool := !(attrs w path &&& attrDirectory != 0#32)

/-- `PathExists` (Filesystem.cpp:55). -/
def pathExists (w : World) (path : Str) : Bool := w.exists_ (cstr path)

/-- `CombinePaths` (Filesystem.cpp:174-184). -/
def combinePaths (root relative : Str) : Str := (root ++ [backslash]) ++ relative

/-- The loop body for one name (Filesystem.cpp:76-91). -/
def listEntry (w : World) (path : Str) (filter : Nat) (name : Str) : List Str :=
  if name ≠ bs "." ∧ name ≠ bs ".." then
    let fullPath := combinePaths path name
    (if (filter &&& typeFile) != 0 && isFile w fullPath then [name] else []) ++
      (if (filter &&& typeDirectory) != 0 && isDirectory w fullPath then [name] else [])
  else []

/-- `GetDirectoryContents` (Filesystem.cpp:67-93, 119). The result of `FindFirstFile` is not checked: if it failed,
`FindData` was not written, and `FindNextFile` on the invalid handle fails as well. -/
def getDirectoryContents (w : World) (path : Str) (filter : Nat) : Option (List Str) :=
  match w.find (cstr (combinePaths path (bs "*"))) with
  | some (first, rest) => some ((first :: rest).flatMap (listEntry w path filter))
  | none =>
    if w.junkName.head? = some 0 then some []
    else if 0 ∈ w.junkName then some (listEntry w path filter (cstr w.junkName))
    else none

/-- `GetPathOfRunningExecutable` (Filesystem.cpp:124-134, 146): line 133 takes the whole buffer. -/
def getPathOfRunningExecutable (w : World) : Str :=
  match w.self with
  | none => []
  | some target => (target.take 1023 ++ [0]) ++ w.junkBuffer.drop (min target.length 1023 + 1)

/-- `GetWorkingDirectory` (Filesystem.cpp:151-162, 169): line 159 takes the needed size for success. -/
def getWorkingDirectory (w : World) : Option Str :=
  match w.cwd with
  | none => some []
  | some path =>
    if path.length + 1 ≤ 1024 then some (cstr path)
    else if 0 ∈ w.junkBuffer then some (cstr w.junkBuffer)
    else none

/-- `GetFilename` (Filesystem.cpp:189-202). -/
def getFilename (path : Str) : Str :=
  match path.rfind backslash with
  | none => []
  | some pos => if path.length > pos + 1 then path.drop (pos + 1) else []

/-- `GetBaseDirectory` (Filesystem.cpp:207-220). -/
def getBaseDirectory (path : Str) : Str :=
  match path.rfind backslash with
  | none => []
  | some pos => path.substr0 pos

/-- `GetFileExtension` (Filesystem.cpp:223-239). -/
def getFileExtension (path : Str) : Str :=
  let filename := getFilename path
  if filename.isEmpty then []
  else match filename.rfind dot with
    | none => []
    | some pos => filename.drop (pos + 1)

end LP.FsWin
