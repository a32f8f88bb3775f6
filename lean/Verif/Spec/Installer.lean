import Verif.Model.Installer
/-!
# Specification: what installing and removing is for
-/
namespace LP.Installer

/-- The path registered for a service, as a user sees it in the list of services. -/
def Sys.registered (s : Sys) (n : Str) : Option Str := (s.services n).map Entry.path

/-- What a run asks for, spelt in capital or small letters. -/
inductive Asks : List Str → Task → Prop where
  | install {a : Str} {r : List Str} : a.length = 7 → (∀ i, i < 7 → a[i]? = (bs "install")[i]? ∨ a[i]? = (bs "INSTALL")[i]?) →
      Asks (a :: r) .install
  | uninstall {a : Str} {r : List Str} : a.length = 9 → (∀ i, i < 9 → a[i]? = (bs "uninstall")[i]? ∨ a[i]? = (bs "UNINSTALL")[i]?) →
      Asks (a :: r) .uninstall

/-- The registered path after a history of requests, each with the path of the program making it (`none` if Windows does not
tell): the first installation since the last removal counts. -/
def history (cur : Option Str) : List (Option Task × Option Str) → Option Str
  | [] => cur
  | (some .install, some p) :: r => history (if cur = none then some (p.take 259) else cur) r
  | (some .uninstall, _) :: r => history none r
  | _ :: r => history cur r

/-- The request of a run. -/
def Requests (r : List Str × Answers) (q : Option Task × Option Str) : Prop :=
  q.2 = r.2.program ∧ (∀ t, q.1 = some t ↔ Asks r.1 t)

/-- The requests of several runs. -/
def RequestsAll : List (List Str × Answers) → List (Option Task × Option Str) → Prop
  | [], [] => True
  | r :: rs, q :: qs => Requests r q ∧ RequestsAll rs qs
  | _, _ => False

/-- Windows grants every request (but may not tell the path of the program). -/
def Answers.Granted (w : Answers) : Prop := w.access = true ∧ w.create = true ∧ w.open_ = true ∧ w.delete = true

end LP.Installer
