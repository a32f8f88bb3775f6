import Verif.Model.Str
/-!
# Filesystem helpers (src/lamppost/Filesystem.cpp), POSIX branch
-/
namespace LP.Fs

/-- What `stat` reports (Filesystem.cpp:18-22, 40-44). Simplification: other inode types are one case. -/
inductive Kind where
  | file
  | directory
  | other
  deriving DecidableEq

/-- The file system as seen by the calls of Filesystem.cpp: `stat` (following symbolic links), `access`, the entries
returned by `readdir` in order (`none`: `opendir` fails), `readlink` of /proc/PID/exe (`none`: -1) and `getcwd`.
Simplification: the file system does not change during a call. -/
structure World where
  stat : Str → Option Kind
  exists_ : Str → Bool
  entries : Str → Option (List Str)
  self : Option Str
  cwd : Option Str

/-- `path.c_str()` as a C function reads it: up to the first NUL byte (Filesystem.cpp:20, 42, 57, 98). -/
def cstr (s : Str) : Str := s.takeWhile (fun c => c != 0)

/-- `IsDirectory` (Filesystem.cpp:6-26). -/
def isDirectory (w : World) (path : Str) : Bool :=
  match w.stat (cstr path) with
  | some k => k == .directory
  | none => false

/-- `IsFile` (Filesystem.cpp:28-48). -/
def isFile (w : World) (path : Str) : Bool :=
  match w.stat (cstr path) with
  | some k => k == .file
  | none => false

/-- `PathExists` (Filesystem.cpp:50-61). -/
def pathExists (w : World) (path : Str) : Bool := w.exists_ (cstr path)

/-- `CombinePaths` (Filesystem.cpp:172-185). -/
def combinePaths (root relative : Str) : Str := (root ++ [slash]) ++ relative

/-- `FilesystemObjectType` (include/lamppost/Filesystem.h:27-32): the numbers of the enumerators. -/
def typeFile : Nat := 1
/-- See `typeFile` (Filesystem.h:30). -/
def typeDirectory : Nat := 2
/-- See `typeFile` (Filesystem.h:31). -/
def typeAny : Nat := 3

/-- What the loop body appends for one entry (Filesystem.cpp:101-112); line 109 tests `File` again. -/
def listEntry (w : World) (path : Str) (filter : Nat) (name : Str) : List Str :=
  let fullPath := combinePaths path name
  let filterIncludesFiles := (filter &&& typeFile) != 0
  let first := if filterIncludesFiles && isFile w fullPath then [name] else []
  let filterIncludesDirectories := (filter &&& typeFile) != 0
  let second := if filterIncludesDirectories && isDirectory w fullPath then [name] else []
  first ++ second

/-- `GetDirectoryContents` (Filesystem.cpp:94-119). -/
def getDirectoryContents (w : World) (path : Str) (filter : Nat) : List Str :=
  match w.entries (cstr path) with
  | none => []
  | some names => names.flatMap (listEntry w path filter)

/-- `GetPathOfRunningExecutable` (Filesystem.cpp:135-147): `readlink` writes at most 1024 bytes and returns their number;
`none`: it returned -1, so the buffer that line 143 reads is uninitialised (undefined behaviour). -/
def getPathOfRunningExecutable (w : World) : Option Str :=
  match w.self with
  | none => none
  | some target =>
    let written := target.take 1024
    let bytes := min written.length 1023
    some (cstr (written.take bytes))

/-- `GetWorkingDirectory` (Filesystem.cpp:149-170): `getcwd` fails if the path and its terminator do not fit in 1024
bytes. -/
def getWorkingDirectory (w : World) : Str :=
  match w.cwd with
  | none => []
  | some path => if path.length + 1 ≤ 1024 then cstr path else []

/-- `GetFilename` (Filesystem.cpp:187-203). -/
def getFilename (path : Str) : Str :=
  match path.rfind slash with
  | none => []
  | some pos => if path.length > pos + 1 then path.drop (pos + 1) else []

/-- `GetBaseDirectory` (Filesystem.cpp:205-221). -/
def getBaseDirectory (path : Str) : Str :=
  match path.rfind slash with
  | none => []
  | some pos => path.substr0 pos

/-- `GetFileExtension` (Filesystem.cpp:223-239). -/
def getFileExtension (path : Str) : Str :=
  let filename := getFilename path
  if filename.isEmpty then []
  else match filename.rfind dot with
    | none => []
    | some pos => filename.drop (pos + 1)

end LP.Fs
