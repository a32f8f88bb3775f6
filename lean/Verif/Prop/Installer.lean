import Verif.Lemma.Installer
import Verif.Lemma.Print
/-!
# C123: installing and removing the Windows service
-/
namespace LP.Installer

/-- What the program does depends on its first argument only, in capital or small letters. -/
theorem C123_request (args : List Str) : (task args = .install ↔ Asks args .install) ∧ (task args = .uninstall ↔ Asks args .uninstall) :=
  task_iff args

/-- A request in mixed letters, and two arguments that are none. -/
example : Asks [bs "InStall", bs "x"] .install ∧ (∀ t, ¬ Asks [bs "--install"] t) ∧ ∀ t, ¬ Asks [] t := by
  refine ⟨.install (by decide +kernel) (by decide +kernel), fun t h => ?_, fun t h => by cases h⟩
  cases h with
  | install h _ => exact absurd h (by decide +kernel)
  | uninstall h _ =>
    rename_i h2
    exact absurd (h2 0 (by omega)) (by decide +kernel)

/-- Every run gives back all handles it has opened, also when it throws, and touches no other service. -/
theorem C123_handles (args : List Str) (w : Answers) (s : Sys) :
    ∃ s', (run args w s = .ok () s' ∨ run args w s = .throw .invalidOperation s' ∧ s' = s) ∧ s'.managers = s.managers ∧
      s'.handles = s.handles ∧ ∀ n, n ≠ name → s'.services n = s.services n := by
  unfold run
  cases task args <;> dsimp only
  · unfold install
    split
    · exact ⟨s, .inr ⟨rfl, rfl⟩, rfl, rfl, fun _ _ => rfl⟩
    · split
      · exact ⟨s, .inr ⟨rfl, rfl⟩, rfl, rfl, fun _ _ => rfl⟩
      · dsimp only
        split
        · exact ⟨_, .inl rfl, rfl, rfl, fun _ _ => rfl⟩
        · refine ⟨_, .inl rfl, ?_, ?_, ?_⟩
          · simp [closeManager, closeService, Sys.put, Sys.print]
          · simp [closeManager, closeService, Sys.put, Sys.print]
          · intro n hn
            simp [closeManager, closeService, Sys.put, Sys.print, hn]
  · unfold uninstall
    split
    · exact ⟨s, .inr ⟨rfl, rfl⟩, rfl, rfl, fun _ _ => rfl⟩
    · dsimp only
      split
      · exact ⟨_, .inl rfl, rfl, rfl, fun _ _ => rfl⟩
      · split
        · exact ⟨_, .inl rfl, rfl, rfl, fun _ _ => rfl⟩
        · rename_i e he _
          refine ⟨_, .inl rfl, ?_, ?_, ?_⟩
          · split <;> simp [closeManager, closeService, Sys.put, Sys.print, he] <;> split <;> rfl
          · split <;> simp [closeManager, closeService, Sys.put, Sys.print, he] <;> split <;> rfl
          · intro n hn
            split <;> simp [closeManager, closeService, Sys.put, Sys.print, he] <;> split <;> simp [hn]
  · exact ⟨s, .inl rfl, rfl, rfl, fun _ _ => rfl⟩

/-- Installing: refused access or an unknown path is an exception. Otherwise the program registers itself exactly if no service
has its name and Windows agrees, and says so; an existing registration stays as it is. The registered path is that of the program
exactly if it has less than 260 characters. -/
theorem C123_install (args : List Str) (ha : Asks args .install) (w : Answers) (s : Sys) :
    (w.program = none ∨ w.access = false → run args w s = .throw .invalidOperation s) ∧
    ∀ p, w.program = some p → w.access = true → ∃ s', run args w s = .ok () s' ∧
      (s.services name = none ∧ w.create = true → s'.registered name = some (p.take 259) ∧
        (s'.registered name = some p ↔ p.length < 260) ∧
        (∃ e, s'.services name = some e ∧ e.autoStart = true ∧ (e.description = some (bs "The LampPost background service.") ↔ w.describe = true)) ∧
        s'.printed = s.printed ++ [bs "Service installed successfully"]) ∧
      (¬ (s.services name = none ∧ w.create = true) → s'.services = s.services ∧
        s'.printed = s.printed ++ [bs "CreateService failed"]) := by
  have ht := (C123_request args).1.2 ha
  simp only [run, ht]
  constructor
  · rintro (h | h)
    · simp only [install, h]
    · cases hp : w.program <;> simp [install, hp, h]
  · intro p hp hacc
    by_cases hc : s.services name = none ∧ w.create = true
    · refine ⟨_, by simp only [install, hp, hacc, hc.1, hc.2]; rfl, fun _ => ?_, fun h => absurd hc h⟩
      have hr : (closeManager (closeService name (((({ s with managers := s.managers + 1, handles := s.handles + 1 } : Sys)).put name
          (some ⟨moduleFileName p, true, if w.describe then some description else none, 0, false⟩)).print
            (bs "Service installed successfully")))).registered name = some (p.take 259) := by
        simp [closeManager, closeService, Sys.put, Sys.print, Sys.registered, moduleFileName, maxPath]
      refine ⟨hr, ?_, ⟨⟨moduleFileName p, true, if w.describe then some description else none, 0, false⟩,
        by simp [closeManager, closeService, Sys.put, Sys.print], rfl, ?_⟩, by simp [closeManager, closeService, Sys.put, Sys.print]⟩
      rotate_left
      · cases w.describe <;> simp [description]
      refine Iff.trans (b := some (p.take 259) = some p) ?_ ?_
      · exact Eq.to_iff (congrArg (· = some p) hr)
      · rw [Option.some.injEq]
        constructor
        · intro h
          have := congrArg List.length h
          rw [List.length_take] at this
          omega
        · intro h; exact List.take_of_length_le (by omega)
    · refine ⟨closeManager (({ s with managers := s.managers + 1 } : Sys).print (bs "CreateService failed")), ?_, fun h => absurd h hc,
        fun _ => ⟨rfl, rfl⟩⟩
      have : ((s.services name).isSome || !w.create) = true := by
        cases h1 : s.services name <;> cases h2 : w.create <;> simp_all
      simp only [install, hp, hacc, this]
      rfl

namespace Ex

/-- A system without services. -/
def empty : Sys := ⟨fun _ => none, 0, 0, []⟩
/-- Answers that grant everything. -/
def yes (p : Str) : Answers := ⟨some p, true, true, true, true, true⟩
/-- A path with a blank. -/
def path : Str := bs "C:\\Program Files\\lp.exe"
/-- A system with the service, held open by one other process. -/
def held : Sys := { empty with services := fun n => if n = name then some ⟨path, true, none, 1, false⟩ else none }

theorem asks_i : Asks [bs "install"] .install := .install (by decide +kernel) (by decide +kernel)
theorem asks_u : Asks [bs "Uninstall"] .uninstall := .uninstall (by decide +kernel) (by decide +kernel)

end Ex

/-- Installing into an empty system; installing where Windows refuses access. -/
example : (∃ s', run [bs "install"] (Ex.yes Ex.path) Ex.empty = .ok () s' ∧ s'.registered name = some Ex.path) ∧
    run [bs "install"] { Ex.yes Ex.path with access := false } Ex.empty = .throw .invalidOperation Ex.empty := by
  obtain ⟨h1, _⟩ := C123_install _ Ex.asks_i { Ex.yes Ex.path with access := false } Ex.empty
  obtain ⟨_, h2⟩ := C123_install _ Ex.asks_i (Ex.yes Ex.path) Ex.empty
  obtain ⟨s', e1, e2, _⟩ := h2 Ex.path rfl rfl
  exact ⟨⟨s', e1, (e2 ⟨rfl, rfl⟩).2.1.2 (by decide +kernel)⟩, h1 (.inr rfl)⟩

theorem marked_stays {s : Sys} {e : Entry} (h : s.services name = some e) (hm : e.marked = true) (ho : e.others ≠ 0) (a : List Str)
    (w : Answers) : ∃ s', (run a w s = .ok () s' ∨ run a w s = .throw .invalidOperation s') ∧ s'.services = s.services := by
  unfold run
  cases task a <;> dsimp only
  · unfold install
    split
    · exact ⟨s, .inr rfl, rfl⟩
    · split
      · exact ⟨s, .inr rfl, rfl⟩
      · refine ⟨closeManager (({ s with managers := s.managers + 1 } : Sys).print (bs "CreateService failed")), .inl ?_, rfl⟩
        simp [h]
  · unfold uninstall
    split
    · exact ⟨s, .inr rfl, rfl⟩
    · simp only [h, hm]
      split
      · exact ⟨_, .inl rfl, rfl⟩
      · exact ⟨_, .inl rfl, by simp [closeManager, closeService, Sys.print, h, hm, ho]⟩
  · exact ⟨s, .inl rfl, rfl⟩

/-- Removing: the service is gone, or, if other processes use it, will be when the last of them has closed it; until then it can
be neither installed nor removed. If Windows refuses, nothing changes. -/
theorem C123_uninstall (args : List Str) (ha : Asks args .uninstall) (w : Answers) (s : Sys) :
    (w.access = false → run args w s = .throw .invalidOperation s) ∧
    (w.access = true → ∃ s', run args w s = .ok () s' ∧
      (∀ e, s.services name = some e → e.marked = false → w.open_ = true → w.delete = true →
        s'.printed = s.printed ++ [bs "Service deleted successfully"] ∧
        (e.others = 0 → s'.services name = none) ∧
        (e.others ≠ 0 → s'.services name = some { e with marked := true } ∧
          ∀ a w', (∃ t, Asks a t) → ∃ s'', (run a w' s' = .ok () s'' ∨ run a w' s' = .throw .invalidOperation s'') ∧
            s''.services = s'.services)) ∧
      (s.services name = none → s'.services = s.services ∧ s'.printed = s.printed ++ [bs "OpenService failed"])) := by
  have ht := (C123_request args).2.2 ha
  simp only [run, ht]
  constructor
  · intro h; simp [uninstall, h]
  · intro hacc
    cases hn : s.services name with
    | none =>
      refine ⟨closeManager (({ s with managers := s.managers + 1 } : Sys).print (bs "OpenService failed")), ?_, ?_, fun _ => ⟨rfl, rfl⟩⟩
      · simp only [uninstall, hacc, hn]; rfl
      · intro e h; cases h
    | some e =>
      by_cases hok : e.marked = false ∧ w.open_ = true ∧ w.delete = true
      · obtain ⟨h1, h2, h3⟩ := hok
        refine ⟨_, by simp only [uninstall, hacc, hn, h1, h2, h3]; rfl, ?_, fun h => by cases h⟩
        intro e' he _ _ _
        cases he
        by_cases ho : e.others = 0
        · refine ⟨?_, fun _ => ?_, fun h => absurd ho h⟩ <;>
            simp [closeManager, closeService, Sys.put, Sys.print, ho]
        · refine ⟨?_, fun h => absurd h ho, fun _ => ?_⟩
          · simp [closeManager, closeService, Sys.put, Sys.print, ho]
          · have key : (closeManager (closeService name ((({ s with managers := s.managers + 1, handles := s.handles + 1 } : Sys).put name
                (some { e with marked := true })).print (bs "Service deleted successfully")))).services name =
                some { e with marked := true } := by
              simp [closeManager, closeService, Sys.put, Sys.print, ho]
            refine ⟨key, ?_⟩
            intro a w' _
            exact marked_stays key rfl ho a w'
      · cases hu : uninstall name w s with
        | ok u s' => exact ⟨s', rfl, fun e' he h1 h2 h3 => by cases he; exact absurd ⟨h1, h2, h3⟩ hok, fun h => by cases h⟩
        | throw x s' => simp [uninstall, hacc, hn] at hu; split at hu <;> cases hu
        | ub => simp [uninstall, hacc, hn] at hu; split at hu <;> cases hu
        | fuel => simp [uninstall, hacc, hn] at hu; split at hu <;> cases hu

/-- Removing a service that is still open elsewhere: it stays, and cannot be installed anew. -/
example : ∃ s' s'', run [bs "Uninstall"] (Ex.yes Ex.path) Ex.held = .ok () s' ∧ s'.registered name = some Ex.path ∧
    (run [bs "install"] (Ex.yes (bs "D:\\lp.exe")) s' = .ok () s'' ∨ run [bs "install"] (Ex.yes (bs "D:\\lp.exe")) s' = .throw .invalidOperation s'') ∧
    s''.registered name = some Ex.path := by
  obtain ⟨s', e1, e2, _⟩ := (C123_uninstall _ Ex.asks_u (Ex.yes Ex.path) Ex.held).2 rfl
  obtain ⟨_, _, h⟩ := e2 ⟨Ex.path, true, none, 1, false⟩ (by simp [Ex.held]) rfl rfl rfl
  obtain ⟨h1, h2⟩ := h (by decide)
  obtain ⟨s'', h3, h4⟩ := h2 [bs "install"] (Ex.yes (bs "D:\\lp.exe")) ⟨_, Ex.asks_i⟩
  exact ⟨s', s'', e1, by rw [Sys.registered, h1]; rfl, h3, by rw [Sys.registered, h4, h1]; rfl⟩

theorem run_granted {args : List Str} {w : Answers} {q : Option Task × Option Str} (hq : Requests (args, w) q) (hg : w.Granted) (s : Sys)
    (hs : ∀ e, s.services name = some e → e.marked = false ∧ e.others = 0) :
    ∃ s', (run args w s = .ok () s' ∨ run args w s = .throw .invalidOperation s') ∧
      (∀ e, s'.services name = some e → e.marked = false ∧ e.others = 0) ∧ s'.registered name = history (s.registered name) [q] := by
  obtain ⟨q1, q2⟩ := q
  obtain ⟨rfl, h2⟩ := hq
  obtain ⟨g1, g2, g3, g4⟩ := hg
  dsimp only at h2 ⊢
  match q1 with
  | none =>
    have : task args = .serve := by
      cases ht : task args with
      | install => cases (h2 .install).2 ((task_iff _).1.1 ht)
      | uninstall => cases (h2 .uninstall).2 ((task_iff _).2.1 ht)
      | serve => rfl
    exact ⟨s, .inl (by simp only [run, this]; rfl), hs, by simp [history]⟩
  | some .serve => exact (asks_serve ((h2 .serve).1 rfl)).elim
  | some .install =>
    have ha := (h2 .install).1 rfl
    obtain ⟨c1, c2⟩ := C123_install args ha w s
    cases hp : w.program with
    | none => exact ⟨s, .inr (c1 (.inl hp)), hs, by simp [history]⟩
    | some p =>
      obtain ⟨s', e1, e2, e3⟩ := c2 p hp g1
      by_cases hn : s.services name = none
      · refine ⟨s', .inl e1, ?_, ?_⟩
        · have ht := (task_iff args).1.2 ha
          simp only [run, ht, install, hp, g1, hn, g2, closeManager, closeService, Sys.put, Sys.print] at e1
          simp at e1
          rw [← e1]
          intro e he
          simp at he
          rw [← he]; simp
        · rw [(e2 ⟨hn, g2⟩).1]; simp [history, Sys.registered, hn]
      · refine ⟨s', .inl e1, ?_, ?_⟩
        · rw [(e3 (fun h => hn h.1)).1]; exact hs
        · obtain ⟨e, he⟩ := Option.ne_none_iff_exists'.1 hn
          simp [Sys.registered, (e3 (fun h => hn h.1)).1, history, he]
  | some .uninstall =>
    obtain ⟨s', e1, e2, e3⟩ := (C123_uninstall args ((h2 .uninstall).1 rfl) w s).2 g1
    have : s'.services name = none := by
      cases hn : s.services name with
      | none => rw [(e3 hn).1, hn]
      | some e => exact (e2 e hn (hs e hn).1 g3 g4).2.1 (hs e hn).2
    exact ⟨s', .inl e1, (fun e he => by rw [this] at he; cases he), by simp [Sys.registered, this, history]⟩

theorem history_cons (cur : Option Str) (q : Option Task × Option Str) (qs : List (Option Task × Option Str)) :
    history cur (q :: qs) = history (history cur [q]) qs := by
  match q with
  | (some .install, some p) => simp [history]
  | (some .install, none) => simp [history]
  | (some .uninstall, _) => simp [history]
  | (some .serve, _) => simp [history]
  | (none, _) => simp [history]

/-- Over any history of runs in which Windows refuses nothing and nobody else holds the service open, the registered path is that
of the first installation since the last removal: installing again from another place does not move the service. -/
theorem C123_history (rs : List (List Str × Answers)) (qs : List (Option Task × Option Str)) (hq : RequestsAll rs qs)
    (hg : ∀ r ∈ rs, r.2.Granted) (s : Sys) (hs : ∀ e, s.services name = some e → e.marked = false ∧ e.others = 0) :
    (runs s rs).registered name = history (s.registered name) qs := by
  induction rs generalizing qs s with
  | nil =>
    cases qs with
    | nil => rfl
    | cons q qs => exact hq.elim
  | cons r rs ih =>
    obtain ⟨args, w⟩ := r
    cases qs with
    | nil => exact hq.elim
    | cons q qs =>
      obtain ⟨s', h1, h2, h3⟩ := run_granted hq.1 (hg (args, w) (by simp)) s hs
      have hr : runs s ((args, w) :: rs) = runs s' rs := by
        rcases h1 with h1 | h1 <;> simp only [runs, h1]
      rw [hr, history_cons, ← h3]
      exact ih qs hq.2 (fun r h => hg r (by simp [h])) s' h2

/-- Installing twice from different places keeps the first; removing in between moves the service. -/
example : (runs Ex.empty [([bs "install"], Ex.yes Ex.path), ([bs "install"], Ex.yes (bs "D:\\lp.exe"))]).registered name = some Ex.path ∧
    (runs Ex.empty [([bs "install"], Ex.yes Ex.path), ([bs "Uninstall"], Ex.yes Ex.path), ([bs "install"], Ex.yes (bs "D:\\lp.exe"))]).registered name =
      some (bs "D:\\lp.exe") := by
  have q : ∀ {a : List Str} {t : Task} (p : Str), Asks a t → Requests (a, Ex.yes p) (some t, some p) :=
    fun {_ t} p h => ⟨rfl, fun t' => ⟨fun e => by cases e; exact h, fun h' => by
      cases t <;> cases t' <;> first | rfl | exact (asks_one h h').elim | exact (asks_one h' h).elim | exact (asks_serve h).elim | exact (asks_serve h').elim⟩⟩
  constructor
  · refine (C123_history [([bs "install"], Ex.yes Ex.path), ([bs "install"], Ex.yes (bs "D:\\lp.exe"))] [(some .install, some Ex.path), (some .install, some (bs "D:\\lp.exe"))]
      ⟨q _ Ex.asks_i, q _ Ex.asks_i, trivial⟩ (by simp [Ex.yes, Answers.Granted]) Ex.empty (fun e h => by simp [Ex.empty] at h)).trans ?_
    decide +kernel
  · refine (C123_history [([bs "install"], Ex.yes Ex.path), ([bs "Uninstall"], Ex.yes Ex.path), ([bs "install"], Ex.yes (bs "D:\\lp.exe"))] [(some .install, some Ex.path), (some .uninstall, some Ex.path), (some .install, some (bs "D:\\lp.exe"))]
      ⟨q _ Ex.asks_i, q _ Ex.asks_u, q _ Ex.asks_i, trivial⟩ (by simp [Ex.yes, Answers.Granted]) Ex.empty (fun e h => by simp [Ex.empty] at h)).trans ?_
    decide +kernel

/-- A service whose path contains no blank is started from that path. -/
theorem C123_started (files : Str → Bool) (p : Str) (hb : 32 ∉ p) (he : bs ".exe" <:+ p) (hf : files p = true) :
    launched files p = some p := by
  have h0 : (List.range p.length).filter (fun i => p[i]? == some 32) = [] := by
    rw [List.filter_eq_nil_iff]
    intro i _ h
    exact hb (List.mem_of_getElem? (by simpa using h))
  have h1 : programName p = p := by
    unfold programName; rw [if_pos (List.isSuffixOf_iff_suffix.2 he)]
  simp [launched, attempts, h0, h1, hf]

/-- With a blank in the path, which is registered without quotation marks, Windows starts another program if there is one under the
name that ends at the blank. -/
theorem C123_started_other (files : Str → Bool) (a b : Str) (ha : 32 ∉ a) (he : ¬ bs ".exe" <:+ a) (hf : files (a ++ bs ".exe") = true) :
    launched files (a ++ 32 :: b) = some (a ++ bs ".exe") := by
  have h0 : ((List.range (a ++ 32 :: b).length).filter (fun i => (a ++ 32 :: b)[i]? == some 32)).head? = some a.length := by
    have e : (a ++ 32 :: b).length = a.length + (1 + b.length) := by simp; omega
    rw [e, List.range_add, List.filter_append, List.filter_eq_nil_iff.2, List.nil_append, List.range_add]
    · simp
    · intro i hi h
      have hi := List.mem_range.1 hi
      rw [List.getElem?_append_left hi] at h
      exact ha (List.mem_of_getElem? (by simpa using h))
  obtain ⟨r, hr⟩ := List.head?_eq_some_iff.1 h0
  have h1 : programName a = a ++ bs ".exe" := by
    unfold programName; rw [if_neg (fun h => he (List.isSuffixOf_iff_suffix.1 h))]
  unfold launched attempts
  rw [hr]
  simp [h1, hf]

/-- A path without blank, and one with, where a file is in the way. -/
example : launched (fun f => f == bs "D:\\lp.exe") (bs "D:\\lp.exe") = some (bs "D:\\lp.exe") ∧
    launched (fun f => f == Ex.path || f == bs "C:\\Program.exe") Ex.path = some (bs "C:\\Program.exe") ∧
    launched (fun f => f == Ex.path) Ex.path = some Ex.path :=
  ⟨C123_started _ _ (by decide +kernel) ⟨bs "D:\\lp", by decide +kernel⟩ (by decide +kernel),
    by
      have h := C123_started_other (fun f => f == Ex.path || f == bs "C:\\Program.exe") (bs "C:\\Program") (bs "Files\\lp.exe") (by decide +kernel)
        (by rw [← List.isSuffixOf_iff_suffix]; decide +kernel) (by decide +kernel)
      rw [show bs "C:\\Program" ++ 32 :: bs "Files\\lp.exe" = Ex.path from by decide +kernel] at h
      exact h.trans (by decide +kernel),
    by decide +kernel⟩

theorem natToStr_length (k : Nat) : ∀ n, n < 10 ^ (k + 1) → (natToStr n).length ≤ k + 1 := by
  induction k with
  | zero => intro n h; rw [natToStr, if_pos (by omega)]; simp
  | succ k ih =>
    intro n h
    rw [natToStr]
    split
    · simp
    · have := ih (n / 10) (by rw [Nat.div_lt_iff_lt_mul (by omega)]; rw [Nat.pow_succ] at h; exact h)
      simp; omega

/-- The text for the event log is never cut off: both functions that are reported leave room for every number. -/
theorem C123_event (f : Str) (hf : f = bs "RegisterServiceCtrlHandler" ∨ f = bs "StartServiceCtrlDispatcher") (e : Int32) :
    eventText f e = f ++ bs " failed with " ++ intToStr e.toInt := by
  have h1 : (intToStr e.toInt).length ≤ 11 := by
    have a := e.toInt_lt
    have b := e.le_toInt
    have := natToStr_length 9 e.toInt.natAbs (by omega)
    unfold intToStr
    split
    · rw [List.length_cons]; omega
    · omega
  unfold eventText
  apply List.take_of_length_le
  have : f.length = 26 := by rcases hf with rfl | rfl <;> decide +kernel
  simp only [List.length_append, this, show (bs " failed with ").length = 13 from by decide +kernel]
  omega

/-- The longest case. -/
example : eventText (bs "StartServiceCtrlDispatcher") (-2147483648) = bs "StartServiceCtrlDispatcher failed with -2147483648" := by
  rw [C123_event _ (.inr rfl)]; decide +kernel

end LP.Installer
