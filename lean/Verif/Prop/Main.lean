import Verif.Model.Main
import Verif.Prop.Destroy
import Verif.Prop.Search
/-!
# The end of the program (C108)
-/
namespace LP.Main
open Plugin (Ev Op emptyManager DistinctIds templateFiles performAll)
open Host (St Outside setup readFiles teardown)

/-- The directories the program searches for plugins: that of the executable, the working directory, and `lib` in it. -/
def Searches (fs : Fs.World) (paths : List Str) : Prop :=
  ∃ exe cwd dir, fs.self = some exe ∧ fs.cwd = some cwd ∧ Plugin.DirectoryOf exe dir ∧
    paths = (if cwd = dir then [dir] else [dir, cwd]) ++ [cwd ++ bs "/lib"]

/-- The system can tell the program where it is, in paths that fit in the buffers (C74). -/
structure Located (fs : Fs.World) : Prop where
  self : ∃ exe, fs.self = some exe ∧ (0 : UInt8) ∉ exe ∧ exe.length < 1024
  cwd : ∃ cwd, fs.cwd = some cwd ∧ (0 : UInt8) ∉ cwd ∧ cwd.length < 1024

theorem directoryOf_exists (exe : Str) : ∃ dir, Plugin.DirectoryOf exe dir := by
  by_cases h : slash ∈ exe
  · obtain ⟨a, b, e, hb⟩ := Fs.cut_last h
    exact ⟨a, .inl ⟨b, e, hb⟩⟩
  · exact ⟨[], .inr ⟨h, rfl⟩⟩

theorem settings_paths (fs : List Str) : (fs.foldl Settings.readConfigurationFile ⟨[]⟩).paths = [] := by
  have : ∀ s : Settings, fs.foldl Settings.readConfigurationFile s = s := by
    induction fs with
    | nil => intro s; rfl
    | cons f fs ih => intro s; exact ih s
  rw [this]

/-- The host is constructed, with a new root bus and these search paths, whatever the configuration files say. -/
theorem C108_constructed {fs : Fs.World} (h : Located fs) (given files : List Str) :
    ∃ paths w, Searches fs paths ∧ Bus.newRoot (bs "root") = .ok w ∧
      construct fs given files = some (.ok (Host.create (emptyManager (given ++ paths) none w))) := by
  obtain ⟨⟨exe, he, he0, hel⟩, cwd, hc, hc0, hcl⟩ := h
  obtain ⟨dir, hd⟩ := directoryOf_exists exe
  have hp := Plugin.C96_search_order fs given exe cwd dir he hc he0 hc0 hel hcl hd
  refine ⟨_, _, ⟨exe, cwd, dir, he, hc, hd, rfl⟩, rfl, ?_⟩
  unfold construct
  rw [hp]
  have hr : Bus.newRoot (bs "root") = .ok _ := rfl
  simp only [hr, settings_paths, List.append_nil, emptyManager, List.append_assoc]

/-- Neither the arguments after the first nor the search paths a configuration file may ask for have an effect. -/
theorem C108_ignored (env : Plugin.Env) (tok : Str → Option Json) (early : Bool)
    (run : Nat → St → Plugin.Out St Unit) (contents : Str → Option Str) (a : Str) (rest : List Str) :
    main env tok early run contents (a :: rest) = main env tok early run contents [a] ∧
    ∀ fs given files, construct fs given files = construct fs given [] := by
  refine ⟨rfl, fun fs given files => ?_⟩
  unfold construct
  simp only [settings_paths]

/-- Events of starting up only: nothing was stopped or deinitialised. -/
def Quiet (log : List Ev) : Prop := ∀ name, Ev.stopped name ∉ log ∧ Ev.deinitialized name ∉ log

/-- The templates have no instances yet. -/
def Unused (m : Plugin.Manager) : Prop := ∀ id h t, m.templates.find id = some (h, t) → t.instances = []

theorem quiet_append {l l' : List Ev} (h : Quiet l) (h' : Quiet l') : Quiet (l ++ l') := by
  intro name
  simp only [List.mem_append, not_or]
  exact ⟨⟨(h name).1, (h' name).1⟩, (h name).2, (h' name).2⟩

theorem quiet_load {env : Plugin.Env} {path : Str} {m m' : Plugin.Manager} {r : Bool} (hq : Quiet m.log) (hu : Unused m)
    (h : Plugin.loadTemplate env path m = .ok r m') : Quiet m'.log ∧ Unused m' := by
  have ho : ∀ x, Quiet [Ev.opened x] := fun x name => by simp
  have hc : ∀ x, Quiet [Ev.closed x] := fun x name => by simp
  unfold Plugin.loadTemplate Plugin.useLibrary at h
  split at h
  · split at h
    · cases h; exact ⟨hq, hu⟩
    · rename_i x lib _
      split at h
      · cases h; exact ⟨quiet_append (quiet_append hq (ho x)) (hc x), hu⟩
      · cases h
      · rename_i id _
        split at h
        · cases h; exact ⟨quiet_append (quiet_append hq (ho x)) (hc x), hu⟩
        · split at h
          · cases h; exact ⟨quiet_append (quiet_append hq (ho x)) (hc x), hu⟩
          · rename_i f _
            have key : ∀ i h' t, (m.templates.insert id (x, ⟨id, some f, []⟩)).find i = some (h', t) → t.instances = [] := by
              intro i h' t hf
              by_cases hi : id = i
              · subst hi
                simp at hf
                obtain ⟨_, rfl⟩ := hf
                rfl
              · rw [Dict.find_insert_ne hi] at hf
                exact hu i h' t hf
            simp only [Plugin.storeTemplate] at h
            split at h
            · cases h; exact ⟨quiet_append hq (ho x), key⟩
            · rename_i o old hold
              have ht := hu id o old hold
              simp only [Plugin.destroyTemplate, Plugin.unload, ht, Plugin.stopAll, Plugin.deinitAll] at h
              cases h
              exact ⟨quiet_append hq (ho x), key⟩
  · cases h; exact ⟨hq, hu⟩

theorem quiet_loadAll {env : Plugin.Env} {ps : List Str} {m m' : Plugin.Manager} (hq : Quiet m.log) (hu : Unused m)
    (h : Plugin.loadAll env ps m = .ok () m') : Quiet m'.log := by
  induction ps generalizing m with
  | nil => cases h; exact hq
  | cons p ps ih =>
    rw [Plugin.loadAll] at h
    split at h <;> try contradiction
    rename_i h1
    obtain ⟨k1, k2⟩ := quiet_load hq hu h1
    exact ih k1 k2 h

theorem quiet_instantiate {early : Bool} {id : Str} {cb : Option Nat} {m m' : Plugin.Manager} (hq : Quiet m.log)
    (h : (∃ a, Plugin.instantiateTemplate early id cb m = .ok a m') ∨ ∃ e, Plugin.instantiateTemplate early id cb m = .throw e m') :
    Quiet m'.log := by
  have hc : ∀ n, Quiet [Ev.created n] := fun x name => by simp
  have key : ∀ p s s', ((∃ a, Plugin.instantiate early p s = .ok a s') ∨ ∃ e, Plugin.instantiate early p s = .throw e s') →
      Quiet s.log → Quiet s'.log := by
    intro p s s' h hs
    unfold Plugin.instantiate at h
    simp only at h
    split at h
    · rcases h with ⟨_, h⟩ | ⟨_, h⟩ <;> cases h
    · split at h
      · rcases h with ⟨_, h⟩ | ⟨_, h⟩ <;> cases h
      · split at h
        · rcases h with ⟨_, h⟩ | ⟨_, h⟩ <;> cases h; exact hs
        · rcases h with ⟨_, h⟩ | ⟨_, h⟩ <;> cases h
        · rcases h with ⟨_, h⟩ | ⟨_, h⟩ <;> cases h
        · split at h
          · rcases h with ⟨_, h⟩ | ⟨_, h⟩ <;> cases h
            split <;> exact hs
          · split at h
            · rcases h with ⟨_, h⟩ | ⟨_, h⟩ <;> cases h
              split <;> exact hs
            · rcases h with ⟨_, h⟩ | ⟨_, h⟩ <;> cases h; exact hs
            · rcases h with ⟨_, h⟩ | ⟨_, h⟩ <;> cases h; exact quiet_append hs (hc _)
  unfold Plugin.instantiateTemplate at h
  simp only at h
  split at h
  · rcases h with ⟨_, h⟩ | ⟨_, h⟩ <;> cases h; exact hq
  · split at h
    · rename_i hi
      rcases h with ⟨_, h⟩ | ⟨_, h⟩ <;> cases h
      exact key _ _ _ (.inl ⟨_, hi⟩) hq
    · rename_i hi
      rcases h with ⟨_, h⟩ | ⟨_, h⟩ <;> cases h
      exact key _ _ _ (.inr ⟨_, hi⟩) hq
    · rcases h with ⟨_, h⟩ | ⟨_, h⟩ <;> cases h
    · rcases h with ⟨_, h⟩ | ⟨_, h⟩ <;> cases h

theorem quiet_ops {env : Plugin.Env} {ops : List Op} {m m' : Plugin.Manager} (hq : Quiet m.log)
    (ho : ∀ op ∈ ops, ∃ early id, op = Op.instantiate early id none) (h : performAll env ops m = some m') : Quiet m'.log := by
  induction ops generalizing m with
  | nil => cases h; exact hq
  | cons op ops ih =>
    obtain ⟨early, id, rfl⟩ := ho op List.mem_cons_self
    simp only [performAll, Plugin.perform] at h
    cases hi : Plugin.instantiateTemplate early id none m with
    | ok a m1 =>
      rw [hi] at h
      exact ih (quiet_instantiate hq (.inl ⟨_, hi⟩)) (fun op hop => ho op (List.mem_cons_of_mem _ hop)) h
    | throw e m1 =>
      rw [hi] at h
      exact ih (quiet_instantiate hq (.inr ⟨_, hi⟩)) (fun op hop => ho op (List.mem_cons_of_mem _ hop)) h
    | ub => rw [hi] at h; cases h
    | terminate => rw [hi] at h; cases h

theorem quiet_config {env : Plugin.Env} {tok : Str → Option Json} {early : Bool} {files paths : List Str}
    {w : Bus.World} {st1 st2 : St}
    (h1 : setup env { Host.create (emptyManager paths none w) with runState := .running } = .ok () st1)
    (h2 : Host.Out.Ends (readFiles tok early files st1) st2) : Quiet st2.mgr.log := by
  obtain ⟨_, _, ops, u3, u4⟩ := Host.readFiles_uses (env := env) h2
  refine quiet_ops ?_ u3 u4
  unfold setup Host.onMgr at h1
  simp only [Host.create, Plugin.loadTemplates, Plugin.setBus, emptyManager] at h1
  split at h1 <;> cases h1
  refine quiet_loadAll (env := env) (m := { searchPaths := paths, bus := some 0, templates := [], world := w, log := [] })
    (fun name => by simp) (fun i h t hf => by cases hf) ?_ (ps := templateFiles env paths)
  assumption

/-- An exception that leaves `Start`: either `Teardown` threw it, or nothing was shut down, and the libraries of all
templates are open. -/
theorem start_throws {env : Plugin.Env} {tok : Str → Option Json} {early : Bool}
    {run : Nat → St → Plugin.Out St Unit} {files paths : List Str} {w : Bus.World} {st' : St} {e : Exn}
    (hrun : Outside run) (hd : DistinctIds env (templateFiles env paths))
    (h : Host.start env tok early run files (Host.create (emptyManager paths none w)) = .throw e st') :
    (∃ st3, teardown st3 = .throw e st') ∨
    (Quiet st'.mgr.log ∧
      ∀ x, st'.mgr.log.count (.opened x) = st'.mgr.log.count (.closed x) + Plugin.holds x st'.mgr.templates) := by
  unfold Host.start at h
  cases h1 : setup env { Host.create (emptyManager paths none w) with runState := .running } with
  | ok _ st1 =>
    rw [h1] at h; simp only at h
    cases h2 : readFiles tok early files st1 with
    | ok _ st2 =>
      rw [h2] at h; simp only at h
      have hq := quiet_config h1 (.inl ⟨_, h2⟩)
      have hb2 := (Host.config_balance hd h1 (.inl ⟨_, h2⟩)).1
      cases hb : st2.rootBus with
      | none => rw [hb] at h; cases h
      | some b =>
        rw [hb] at h; simp only at h
        cases h3 : run b st2 with
        | ok _ st3 =>
          rw [h3] at h; simp only at h
          cases h4 : teardown st3 with
          | ok _ st4 => rw [h4] at h; cases h
          | throw e4 st4 => rw [h4] at h; cases h; exact .inl ⟨_, h4⟩
          | ub => rw [h4] at h; cases h
          | terminate => rw [h4] at h; cases h
        | throw e3 st3 =>
          rw [h3] at h; cases h
          obtain ⟨t, l, _⟩ := hrun _ _ _ (.inr ⟨_, h3⟩)
          rw [l, t]
          exact .inr ⟨hq, hb2⟩
        | ub => rw [h3] at h; cases h
        | terminate => rw [h3] at h; cases h
    | throw e2 st2 =>
      rw [h2] at h; cases h
      exact .inr ⟨quiet_config h1 (.inr ⟨_, h2⟩), (Host.config_balance hd h1 (.inr ⟨_, h2⟩)).1⟩
    | ub => rw [h2] at h; cases h
    | terminate => rw [h2] at h; cases h
  | throw e st1 => exact absurd h1 Host.setup_no_throw
  | ub => rw [h1] at h; cases h
  | terminate => rw [h1] at h; cases h

/-- The program ends with status 0 or not by itself; with status 0 every library was closed as often as it was opened. -/
theorem C108_exit {env : Plugin.Env} {tok : Str → Option Json} {early : Bool}
    {run : Nat → St → Plugin.Out St Unit} {contents : Str → Option Str} {args : List Str} {status : Nat} {log : List Ev}
    (hl : Located env.fs) (hrun : Outside run) (hd : ∀ paths, Searches env.fs paths → DistinctIds env (templateFiles env paths))
    (h : main env tok early run contents args = .exit status log) :
    status = 0 ∧ ∀ x, log.count (.opened x) = log.count (.closed x) := by
  obtain ⟨paths, w, hs, _, hc⟩ := C108_constructed hl [] (files args)
  rw [List.nil_append] at hc
  unfold main at h
  rw [hc] at h
  simp only at h
  split at h
  · rename_i st1 h1
    have h2 := (Host.C105_after_return hrun (hd paths hs) h1).2
    rw [h2] at h
    cases h
    refine ⟨rfl, ?_⟩
    exact (Host.C78_everything_released (fun b s s' hs => ⟨(hrun b s s' (.inl ⟨_, hs⟩)).1, (hrun b s s' (.inl ⟨_, hs⟩)).2.1⟩)
      (hd paths hs) h1).2.2
  · cases h
  · cases h
  · cases h

theorem files_take (args : List Str) : files args = args.take 1 := by cases args <;> simp [files]

/-- It ends with status 0 exactly if `Start`, called with the text of the file named by the first argument, returns. -/
theorem C108_exit_iff {env : Plugin.Env} {tok : Str → Option Json} {early : Bool}
    {run : Nat → St → Plugin.Out St Unit} {contents : Str → Option Str} {args paths : List Str} {w : Bus.World}
    (hrun : Outside run) (hd : DistinctIds env (templateFiles env paths))
    (hc : construct env.fs [] (args.take 1) = some (.ok (Host.create (emptyManager paths none w)))) :
    (∃ log, main env tok early run contents args = .exit 0 log) ↔
      ∃ st, Host.start env tok early run ((args.take 1).map (fun f => (contents f).getD []))
        (Host.create (emptyManager paths none w)) = .ok () st := by
  unfold main
  rw [files_take, hc]
  constructor
  · rintro ⟨log, h⟩
    simp only at h
    split at h <;> try contradiction
    rename_i st1 h1
    exact ⟨st1, h1⟩
  · rintro ⟨st, h⟩
    have h2 := (Host.C105_after_return hrun hd h).2
    simp only [h, h2]
    exact ⟨_, rfl⟩

/-- An exception that leaves `Start` aborts the program, and the host is not destroyed: unless the exception comes from
`Teardown`, no instance is stopped or deinitialised and the libraries of all templates stay open. -/
theorem C108_exception {env : Plugin.Env} {tok : Str → Option Json} {early : Bool}
    {run : Nat → St → Plugin.Out St Unit} {contents : Str → Option Str} {args paths : List Str} {w : Bus.World} {e : Exn} {st : St}
    (hrun : Outside run) (hd : DistinctIds env (templateFiles env paths))
    (hc : construct env.fs [] (args.take 1) = some (.ok (Host.create (emptyManager paths none w))))
    (h : Host.start env tok early run ((args.take 1).map (fun f => (contents f).getD []))
      (Host.create (emptyManager paths none w)) = .throw e st) :
    ∃ log, main env tok early run contents args = .aborted (some (e, log)) ∧
      ((∃ st3, teardown st3 = .throw e st) ∨
        (Quiet log ∧ ∀ x, log.count (.opened x) = log.count (.closed x) + Plugin.holds x st.mgr.templates)) := by
  refine ⟨st.mgr.log, ?_, start_throws hrun hd h⟩
  unfold main
  rw [files_take, hc]
  simp only [h]

/-! ## Cases -/

/-- A host with the working directory `/p`, which holds one plugin. -/
def env1 : Plugin.Env :=
  { fs := { Host.hostEnv.fs with self := some (bs "/usr/bin/lamppost"), cwd := some (bs "/p") }
    dlopen := fun p => if p = bs "/p/libplugin_a.so" then
      some (1, ⟨some (some (bs "A")), some (fun _ => .object ⟨none, none⟩)⟩) else none }

/-- What an observer sees of an end of `main` (main.cpp:38-51). -/
def seen : End → Option (Bool × List Ev)
  | .exit _ log => some (true, log)
  | .aborted (some (_, log)) => some (false, log)
  | _ => none

/-- What json-c makes of the one text of the example (RawDatagram.cpp:404-423). -/
def config (t : Str) : Option Json := if t = bs "text" then some Host.hostConfig else none
/-- The one file of the example (LampPost.cpp:69-71). -/
def disk (f : Str) : Option Str := if f = bs "c" then some (bs "text") else none

example : seen (main env1 config false (fun _ s => .ok () s) disk [bs "c", bs "ignored"]) =
    some (true, [.opened 1, .created (bs "A0"), .stopped (bs "A0"), .deinitialized (bs "A0"), .closed 1]) := by decide +kernel
example : seen (main env1 config false (fun _ s => .throw .invalidOperation s) disk [bs "c"]) =
    some (false, [.opened 1, .created (bs "A0")]) := by decide +kernel
/-- A configuration file that cannot be read is not an error. -/
example : seen (main env1 config false (fun _ s => .ok () s) disk [bs "missing"]) = some (true, [.opened 1, .closed 1]) := by
  decide +kernel
example : Located env1.fs :=
  ⟨⟨_, rfl, by decide, by decide⟩, _, rfl, by decide, by decide⟩
example : construct env1.fs [] ([bs "c"].take 1) =
    some (.ok (Host.create (emptyManager [bs "/usr/bin", bs "/p", bs "/p/lib"] none
      (match Bus.newRoot (bs "root") with | .ok w => w | .error _ => Plugin.noWorld)))) := by
  unfold construct
  have : Plugin.initialPaths env1.fs [] = some [bs "/usr/bin", bs "/p", bs "/p/lib"] := by decide +kernel
  rw [this]
  rfl

end LP.Main
