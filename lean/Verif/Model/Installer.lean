import Verif.Model.Out
/-!
# Installing and removing the Windows service (Service.cpp:46-149, service/main.cpp)

The functions only call Windows; what Windows does is modelled here as far as it matters: its table of services, the
handles to the service manager and to services that this process holds, and its way of starting a service.

Assumptions about Windows: `GetModuleFileName` cuts off a path that does not fit and then still returns a non-zero number
(as documented since Vista); `CreateService` fails if there is a service of that name, also one marked for deletion;
`DeleteService` marks, and the service disappears when the last handle to it is closed; the path of a service is a command
line, of which every beginning that ends at a blank is tried first.
-/
namespace LP.Installer

/-- An entry of the table of services: what `CreateService` and `ChangeServiceConfig2` (Service.cpp:69-99) put there and what
can be seen of it. `others` counts handles that other processes hold. -/
structure Entry where
  path : Str
  autoStart : Bool
  description : Option Str
  others : Nat
  marked : Bool
  deriving DecidableEq, Repr

/-- What of the operating system is concerned by Service.cpp:46-149. `managers` and `handles` count the handles that this process
holds, to the service manager and to services; `printed` is what `printf` has written, without the error numbers. -/
structure Sys where
  services : Str → Option Entry
  managers : Nat
  handles : Nat
  printed : List Str

/-- What Windows answers during one run: the path of the program (`none`: `GetModuleFileName` fails, Service.cpp:52), whether
access to the manager is granted (Service.cpp:58-66, 114-122), whether the other calls succeed as far as nothing else prevents
it (Service.cpp:69, 96, 125, 138). -/
structure Answers where
  program : Option Str
  access : Bool
  create : Bool
  describe : Bool
  open_ : Bool
  delete : Bool
  deriving DecidableEq, Repr

/-- `MAX_PATH` (Service.cpp:50). -/
def maxPath : Nat := 260

/-- What `GetModuleFileName(nullptr, szPath, MAX_PATH)` leaves in the buffer (Service.cpp:50-52): as much of the path as fits
beside the terminator. -/
def moduleFileName (path : Str) : Str := path.take (maxPath - 1)

/-- Replace an entry of the table (Service.cpp:69, 96, 138). -/
def Sys.put (s : Sys) (name : Str) (e : Option Entry) : Sys :=
  { s with services := fun n => if n = name then e else s.services n }

/-- `printf` (Service.cpp:86, 101, 132, 140, 144). -/
def Sys.print (s : Sys) (line : Str) : Sys := { s with printed := s.printed ++ [line] }

/-- `CloseServiceHandle(schService)` (Service.cpp:104, 147): with the last handle to it a marked service disappears. -/
def closeService (name : Str) (s : Sys) : Sys :=
  let s := { s with handles := s.handles - 1 }
  match s.services name with
  | some e => if e.marked && e.others == 0 then s.put name none else s
  | none => s

/-- `CloseServiceHandle(schSCManager)` (Service.cpp:87, 105, 133, 148). -/
def closeManager (s : Sys) : Sys := { s with managers := s.managers - 1 }

/-- `Service::Install` (Service.cpp:46-106). The return value of `ChangeServiceConfig2` is not looked at. -/
def install (name description : Str) (w : Answers) : M Sys Unit := fun s =>
  match w.program with
  | none => .throw .invalidOperation s
  | some path =>
    if !w.access then .throw .invalidOperation s
    else
      let s := { s with managers := s.managers + 1 }
      if (s.services name).isSome || !w.create then
        .ok () (closeManager (s.print (bs "CreateService failed")))
      else
        let s := { s with handles := s.handles + 1 }
        let s := s.put name (some ⟨moduleFileName path, true, if w.describe then some description else none, 0, false⟩)
        let s := s.print (bs "Service installed successfully")
        .ok () (closeManager (closeService name s))

/-- `Service::Uninstall` (Service.cpp:108-149). -/
def uninstall (name : Str) (w : Answers) : M Sys Unit := fun s =>
  if !w.access then .throw .invalidOperation s
  else
    let s := { s with managers := s.managers + 1 }
    match s.services name with
    | none => .ok () (closeManager (s.print (bs "OpenService failed")))
    | some e =>
      if !w.open_ then .ok () (closeManager (s.print (bs "OpenService failed")))
      else
        let s := { s with handles := s.handles + 1 }
        let s := if e.marked || !w.delete then s.print (bs "DeleteService failed")
          else (s.put name (some { e with marked := true })).print (bs "Service deleted successfully")
        .ok () (closeManager (closeService name s))

/-- `lstrcmpi(a, b) == 0` (service/main.cpp:26, 30) for texts of ASCII letters; a null pointer (there is no such argument) is
different from every text. Simplification: other letters are compared as bytes. -/
def sameNoCase (a : Option Str) (b : Str) : Bool :=
  match a with
  | none => false
  | some a => a.map lower == b.map lower
where
  /-- The small letter. -/
  lower (c : UInt8) : UInt8 := if 65 ≤ c ∧ c ≤ 90 then c + 32 else c

/-- What a run of the program does (service/main.cpp:21-50). -/
inductive Task where
  | install | uninstall | serve
  deriving DecidableEq, Repr

/-- The choice by the first argument (service/main.cpp:26-36); `args` are the arguments after the program name. -/
def task (args : List Str) : Task :=
  if sameNoCase args[0]? (bs "install") then .install
  else if sameNoCase args[0]? (bs "uninstall") then .uninstall
  else .serve

/-- The name and the description of the service (service/main.cpp:12). -/
def name : Str := bs "LampPost.Service"
/-- See `name` (service/main.cpp:12). -/
def description : Str := bs "The LampPost background service."

/-- One run of the program as an installer (service/main.cpp:21-33); the operation of the service itself is in
`Verif.Model.Service`. An exception out of `Install` or `Uninstall` is caught by nobody. -/
def run (args : List Str) (w : Answers) : M Sys Unit :=
  match task args with
  | .install => install name description w
  | .uninstall => uninstall name w
  | .serve => pure ()

/-- Several runs one after the other (service/main.cpp:21-50); an exception ends only its run. -/
def runs (s : Sys) : List (List Str × Answers) → Sys
  | [] => s
  | (args, w) :: r =>
    match run args w s with
    | .ok _ s' => runs s' r
    | .throw _ s' => runs s' r
    | _ => runs s r

/-- The programs Windows tries for a service whose path is `path`, as a command line without quotation marks (Service.cpp:77 gives
the bare path): all beginnings that end before a blank, shortest first, then the whole. -/
def attempts (path : Str) : List Str :=
  ((List.range path.length).filter (fun i => path[i]? == some 32)).map (path.take ·) ++ [path]

/-- Whether Windows tries it as it is, or with ".exe" added (for the path given in Service.cpp:77). Simplification: only the extension
".exe" counts as one. -/
def programName (c : Str) : Str := if (bs ".exe").isSuffixOf c then c else c ++ bs ".exe"

/-- The program Windows starts for a service with this path (Service.cpp:77), if any of them exists. -/
def launched (files : Str → Bool) (path : Str) : Option Str := ((attempts path).map programName).find? files

/-- The text that `Service::ReportEvent` (Service.cpp:274-301) hands to the event log, for the name of a function and the last
error as `%d` shows it: at most 79 characters fit into the buffer. -/
def eventText (function : Str) (error : Int32) : Str := (function ++ bs " failed with " ++ intToStr error.toInt).take 79

end LP.Installer
