import Verif.Prop.Shutdown
/-!
# C105: destroying a host
-/
namespace LP.Plugin

/-- Every instance of the template exists. -/
def Alive (t : Template) : Prop := ∀ e ∈ t.instances, e.2 ≠ none

/-- Every instance of the template exists, and its `Deinitialize` returns. -/
def Fine (t : Template) : Prop := ∀ e ∈ t.instances, ∃ i, e.2 = some i ∧ i.deinitExn = none

/-- The events of unloading templates without a failure: of each the instances, then its library is closed. -/
def unloaded (d : Dict (Nat × Template)) : List Ev :=
  d.flatMap (fun e => unloadEvents e.2.2.instances.keys ++ [.closed e.2.1])

theorem unload_fine {t : Template} (h : Fine t) (log : List Ev) :
    unload t log = .ok () (⟨t.ident, none, []⟩, log ++ unloadEvents t.instances.keys) := by
  unfold unload unloadEvents
  simp only
  rw [stopAll_eq _ _ (fun e he => by obtain ⟨i, hi, _⟩ := h e he; simp [hi])]
  simp only
  rw [deinitAll_eq _ _ h]
  simp

theorem stopAll_null : ∀ (d : Dict (Option Inst)) (log : List Ev), (∃ e ∈ d, e.2 = none) → stopAll d log = none := by
  intro d
  induction d with
  | nil => rintro log ⟨e, he, _⟩; cases he
  | cons x d ih =>
    rintro log ⟨e, he, hn⟩
    obtain ⟨n, o⟩ := x
    cases o with
    | none => rfl
    | some i =>
      rcases List.mem_cons.1 he with rfl | he
      · cases hn
      · exact ih _ ⟨e, he, hn⟩

theorem unload_null {t : Template} (h : ¬ Alive t) (log : List Ev) : unload t log = .ub := by
  have : ∃ e ∈ t.instances, e.2 = none := by
    unfold Alive at h
    simpa using h
  unfold unload
  simp only
  rw [stopAll_null _ _ this]

theorem deinitAll_bad : ∀ (d : Dict (Option Inst)) (log : List Ev), (∀ e ∈ d, e.2 ≠ none) →
    (¬ ∀ e ∈ d, ∃ i, e.2 = some i ∧ i.deinitExn = none) → ∃ l x, deinitAll d log = some (l, some x) := by
  intro d
  induction d with
  | nil => intro log _ h; exact absurd (fun e he => by cases he) h
  | cons x d ih =>
    intro log ha h
    obtain ⟨n, o⟩ := x
    cases o with
    | none => exact absurd rfl (ha _ (List.mem_cons_self ..))
    | some i =>
      rw [deinitAll]
      cases hx : i.deinitExn with
      | some e => exact ⟨_, _, rfl⟩
      | none =>
        refine ih _ (fun e he => ha e (List.mem_cons_of_mem _ he)) (fun hd => h (fun e he => ?_))
        rcases List.mem_cons.1 he with rfl | he
        · exact ⟨i, rfl, hx⟩
        · exact hd e he

theorem unload_bad {t : Template} (h : Alive t) (hf : ¬ Fine t) (log : List Ev) :
    ∃ x l, unload t log = .throw x (⟨t.ident, none, t.instances⟩, l) := by
  unfold unload
  simp only
  rw [stopAll_eq _ _ h]
  simp only
  obtain ⟨l, x, e⟩ := deinitAll_bad t.instances _ h hf
  rw [e]
  exact ⟨x, l, rfl⟩

/-- A template entry after it was unloaded. -/
def emptied (e : Str × Nat × Template) : Str × Nat × Template := (e.1, e.2.1, ⟨e.2.2.ident, none, []⟩)

theorem unloadAll_fine : ∀ (d front : Dict (Nat × Template)) (log : List Ev), (∀ e ∈ d, Fine e.2.2) → ∀ rest,
    unloadAll front (d ++ rest) log = unloadAll (front ++ d.map emptied) rest (log ++ unloaded d) := by
  intro d
  induction d with
  | nil => intro front log _ rest; simp [unloaded]
  | cons x d ih =>
    intro front log h rest
    obtain ⟨id, hh, t⟩ := x
    rw [List.cons_append, unloadAll, unload_fine (h _ (List.mem_cons_self ..))]
    simp only
    rw [ih _ _ (fun e he => h e (List.mem_cons_of_mem _ he))]
    simp [unloaded, emptied]

theorem destroyAll_emptied : ∀ (d : Dict (Nat × Template)) (log : List Ev),
    destroyAll (d.map emptied) log = .ok () log := by
  intro d
  induction d with
  | nil => intro log; rfl
  | cons x d ih =>
    intro log
    have : destroyTemplate ⟨x.2.2.ident, none, []⟩ log = .ok () log := by
      simp [destroyTemplate, unload, stopAll, deinitAll]
    simp only [List.map_cons, emptied, destroyAll, this]
    exact ih log

theorem unloadTemplates_fine {m : Manager} (h : ∀ e ∈ m.templates, Fine e.2.2) :
    unloadTemplates m = .ok () { m with templates := [], log := m.log ++ unloaded m.templates } := by
  unfold unloadTemplates
  split
  · rename_i he
    have : m.templates = [] := List.isEmpty_iff.1 he
    cases m
    simp only at this
    subst this
    simp [unloaded]
  · have := unloadAll_fine m.templates [] m.log h []
    rw [List.append_nil] at this
    rw [this, unloadAll]
    simp only [List.nil_append]
    rw [destroyAll_emptied]

theorem unloadTemplates_bad {m : Manager} {pre post : Dict (Nat × Template)} {x : Str × Nat × Template}
    (he : m.templates = pre ++ x :: post) (h : ∀ e ∈ pre, Fine e.2.2) (hx : ¬ Fine x.2.2) :
    (¬ Alive x.2.2 → unloadTemplates m = .ub) ∧
    (Alive x.2.2 → ∃ e l, unloadTemplates m = .throw e { m with
      templates := pre.map emptied ++ (x.1, x.2.1, ⟨x.2.2.ident, none, x.2.2.instances⟩) :: post, log := l }) := by
  have hne : m.templates.isEmpty = false := by rw [he]; cases pre <;> rfl
  have hu := unloadAll_fine pre [] m.log h (x :: post)
  constructor
  · intro ha
    simp only [unloadTemplates, hne]
    rw [he, hu, unloadAll, unload_null ha]
    rfl
  · intro ha
    obtain ⟨e, l, hb⟩ := unload_bad ha hx (m.log ++ unloaded pre)
    refine ⟨e, l, ?_⟩
    simp only [unloadTemplates, hne]
    rw [he, hu, unloadAll, hb]
    simp

/-- Every list of templates has a first one that is not fine, or none. -/
theorem first_bad (d : Dict (Nat × Template)) : (∀ e ∈ d, Fine e.2.2) ∨
    ∃ pre x post, d = pre ++ x :: post ∧ (∀ e ∈ pre, Fine e.2.2) ∧ ¬ Fine x.2.2 := by
  induction d with
  | nil => exact .inl (fun e he => by cases he)
  | cons x d ih =>
    by_cases hx : Fine x.2.2
    · rcases ih with h | ⟨pre, y, post, h1, h2, h3⟩
      · refine .inl (fun e he => ?_)
        rcases List.mem_cons.1 he with rfl | he
        · exact hx
        · exact h e he
      · refine .inr ⟨x :: pre, y, post, by rw [h1]; rfl, fun e he => ?_, h3⟩
        rcases List.mem_cons.1 he with rfl | he
        · exact hx
        · exact h2 e he
    · exact .inr ⟨[], x, d, rfl, (fun e he => by cases he), hx⟩

end LP.Plugin

namespace LP.Host
open Plugin (Out Op performAll perform emptyManager DistinctIds templateFiles Alive Fine unloaded)

/-- Destroying a host, in whatever state it is, unloads the templates that are left: if all instances exist and their
`Deinitialize` return, every instance is stopped and deinitialised, the libraries are closed, and both references to the
root bus are released. -/
theorem C105_destroyed (st : St) (h : ∀ e ∈ st.mgr.templates, Fine e.2.2) :
    ∃ st', destroy st = .ok () st' ∧ st'.mgr.log = st.mgr.log ++ unloaded st.mgr.templates ∧
      st'.mgr.templates = [] ∧ st'.rootBus = none ∧ st'.mgr.bus = none := by
  simp only [destroy, onMgr, Plugin.destroyManager, Plugin.unloadTemplates_fine h]
  exact ⟨_, rfl, rfl, rfl, rfl, rfl⟩

/-- Otherwise the first template with a missing instance or a throwing `Deinitialize` decides: a missing instance makes
the destructor undefined, a throwing `Deinitialize` ends the process. -/
theorem C105_cannot_be_destroyed (st : St) {pre post : Dict (Nat × Plugin.Template)} {x : Str × Nat × Plugin.Template}
    (he : st.mgr.templates = pre ++ x :: post) (h : ∀ e ∈ pre, Fine e.2.2) (hx : ¬ Fine x.2.2) :
    (¬ Alive x.2.2 → destroy st = .ub) ∧ (Alive x.2.2 → destroy st = .terminate) := by
  obtain ⟨h1, h2⟩ := Plugin.unloadTemplates_bad he h hx
  constructor
  · intro ha
    simp only [destroy, onMgr, Plugin.destroyManager, h1 ha]
  · intro ha
    obtain ⟨e, l, h3⟩ := h2 ha
    simp only [destroy, onMgr, Plugin.destroyManager, h3]

theorem each_no_throw {S A : Type} {f : A → M S Unit} (hf : ∀ a s e s', f a s ≠ .throw e s') : ∀ (l : List A) (s s' : S) (e : Exn),
    M.each f l s ≠ .throw e s' := by
  intro l
  induction l with
  | nil => intro s s' e h; cases h
  | cons a l ih =>
    intro s s' e h
    unfold M.each at h
    simp only [bind, M.bind] at h
    cases ha : f a s with
    | ok u s1 => rw [ha] at h; exact ih _ _ _ h
    | throw e1 s1 => exact hf _ _ _ _ ha
    | ub => rw [ha] at h; cases h
    | fuel => rw [ha] at h; cases h

theorem detach_no_throw : ∀ (n b : Nat) (w w' : Bus.World) (e : Exn), Bus.detach n b w ≠ .throw e w' := by
  intro n
  induction n with
  | zero => intro b w w' e h; cases h
  | succ n ih =>
    intro b w w' e h
    exact each_no_throw (fun a s e s' => ih _ _ _ _) _ _ _ _ h

/-- So the destructor comes to its end exactly if every instance exists and every `Deinitialize` returns. -/
theorem C105_iff (st : St) : (∃ st', destroy st = .ok () st') ↔ ∀ e ∈ st.mgr.templates, Fine e.2.2 := by
  constructor
  · rintro ⟨st', h⟩
    rcases Plugin.first_bad st.mgr.templates with hf | ⟨pre, x, post, he, hp, hx⟩
    · exact hf
    · obtain ⟨h1, h2⟩ := C105_cannot_be_destroyed st he hp hx
      by_cases ha : Alive x.2.2
      · rw [h2 ha] at h; cases h
      · rw [h1 ha] at h; cases h
  · intro h
    obtain ⟨st', e, _⟩ := C105_destroyed st h
    exact ⟨st', e⟩

/-- A host whose `Teardown` threw, because a `Deinitialize` did, cannot be destroyed: that ends the process. -/
theorem C105_after_failed_teardown {st st' : St} {e : Exn} (h : teardown st = .throw e st') :
    destroy st' = .terminate := by
  unfold teardown at h
  split at h
  · cases h
  · split at h
    · rename_i w2 _
      simp only [onMgr] at h
      rcases Plugin.first_bad st.mgr.templates with hf | ⟨pre, x, post, he, hp, hx⟩
      · rw [Plugin.unloadTemplates_fine (m := { st.mgr with world := w2 }) hf] at h
        cases h
      · obtain ⟨u1, u2⟩ := Plugin.unloadTemplates_bad (m := { st.mgr with world := w2 }) he hp hx
        by_cases ha : Alive x.2.2
        · obtain ⟨e1, l, u3⟩ := u2 ha
          rw [u3] at h
          cases h
          refine (C105_cannot_be_destroyed _ (pre := pre.map Plugin.emptied) (post := post) rfl ?_ ?_).2 ?_
          · intro e he
            obtain ⟨y, _, rfl⟩ := List.mem_map.1 he
            intro e he
            cases he
          · exact hx
          · exact ha
        · rw [u1 ha] at h
          cases h
    · rename_i hd; exact absurd hd (detach_no_throw _ _ _ _ _)
    · cases h
    · cases h

theorem storeTemplate_bus {id : Str} {handle : Nat} {t : Plugin.Template} {m m' : Plugin.Manager} {r : Bool}
    (h : Plugin.storeTemplate id handle t m = .ok r m') : m'.bus = m.bus := by
  unfold Plugin.storeTemplate at h
  split at h
  · cases h; rfl
  · split at h <;> cases h; rfl

theorem perform_bus {env : Plugin.Env} {op : Op} {m m' : Plugin.Manager} (h : perform env op m = some m')
    (hop : ∀ b, op ≠ .setBus b) : m'.bus = m.bus := by
  cases op with
  | load path =>
    cases hl : Plugin.loadTemplate env path m with
    | ok r m1 =>
      simp only [perform, hl] at h
      cases h
      unfold Plugin.loadTemplate Plugin.useLibrary at hl
      split at hl
      · split at hl
        · cases hl; rfl
        · simp only at hl
          split at hl
          · cases hl; rfl
          · cases hl
          · split at hl
            · cases hl; rfl
            · split at hl
              · cases hl; rfl
              · exact (storeTemplate_bus hl).trans rfl
      · cases hl; rfl
    | throw e m1 => exact absurd hl Plugin.loadTemplate_no_throw
    | ub => simp only [perform, hl] at h; cases h
    | terminate => simp only [perform, hl] at h; cases h
  | instantiate early id bus =>
    have : ∀ r, Plugin.instantiateTemplate early id bus m = r → (∀ a m1, r = .ok a m1 → m1.bus = m.bus) ∧
        ∀ e m1, r = .throw e m1 → m1.bus = m.bus := by
      intro r hr
      unfold Plugin.instantiateTemplate at hr
      simp only at hr
      split at hr
      · subst hr; exact ⟨(fun a m1 h => by cases h; rfl), (fun a m1 h => by cases h)⟩
      · split at hr <;> subst hr
        · exact ⟨(fun a m1 h => by cases h; rfl), (fun a m1 h => by cases h)⟩
        · exact ⟨(fun a m1 h => by cases h), (fun a m1 h => by cases h; rfl)⟩
        · exact ⟨(fun a m1 h => by cases h), (fun a m1 h => by cases h)⟩
        · exact ⟨(fun a m1 h => by cases h), (fun a m1 h => by cases h)⟩
    obtain ⟨t1, t2⟩ := this _ rfl
    simp only [perform] at h
    split at h
    · cases h; rename_i hx; exact t1 _ _ hx
    · cases h; rename_i hx; exact t2 _ _ hx
    · cases h
  | setBus b => exact absurd rfl (hop b)

theorem performAll_bus {env : Plugin.Env} {ops : List Op} {m m' : Plugin.Manager} (h : performAll env ops m = some m')
    (hop : ∀ op ∈ ops, ∀ b, op ≠ .setBus b) : m'.bus = m.bus := by
  induction ops generalizing m with
  | nil => cases h; rfl
  | cons op ops ih =>
    rw [performAll] at h
    cases h1 : perform env op m with
    | none => rw [h1] at h; cases h
    | some m1 =>
      rw [h1] at h
      rw [ih h (fun o ho => hop o (List.mem_cons_of_mem _ ho)), perform_bus h1 (hop op (List.mem_cons_self ..))]

/-- Libraries open while the configuration is read. -/
theorem config_balance {env : Plugin.Env} {tok : Str → Option Json} {early : Bool} {files : List Str} {paths : List Str}
    {w : Bus.World} {st1 st2 : St} (hd : DistinctIds env (templateFiles env paths))
    (h1 : setup env { create (emptyManager paths none w) with runState := .running } = .ok () st1)
    (h2 : Out.Ends (readFiles tok early files st1) st2) :
    (∀ x, st2.mgr.log.count (.opened x) = st2.mgr.log.count (.closed x) + Plugin.holds x st2.mgr.templates) ∧
      st2.mgr.bus = some 0 := by
  obtain ⟨u1, u2, ops, u3, u4⟩ := readFiles_uses (env := env) h2
  have h1' : Plugin.loadAll env (templateFiles env paths) (Plugin.setBus (some 0) (emptyManager paths none w)) = .ok () st1.mgr := by
    unfold setup onMgr at h1
    simp only [create, Plugin.loadTemplates, Plugin.setBus, emptyManager] at h1 ⊢
    split at h1 <;> cases h1
    rename_i hx; exact hx
  have hperf : performAll env ([.setBus (some 0)] ++ (templateFiles env paths).map Op.load ++ ops) (emptyManager paths none w) =
      some st2.mgr := performAll_append (performAll_append (by rfl) (loadAll_performs h1')) u4
  have hbal := Plugin.performAll_eq hperf Dict.sorted_nil (by
    rw [loadPaths_append, loadPaths_append, loadPaths_loads, loadPaths_instantiate u3]
    simpa [Plugin.loadPaths] using hd) (fun _ _ _ _ _ _ => rfl)
  constructor
  · intro x
    have h6 := hbal x
    simp [emptyManager, Plugin.holds] at h6
    simp only [Plugin.holds]
    omega
  · rw [performAll_bus (m := st1.mgr) u4 (fun op ho b => by obtain ⟨_, _, e⟩ := u3 op ho; rw [e]; exact fun h => by cases h)]
    exact performAll_bus (loadAll_performs h1') (fun op ho b => by
      obtain ⟨q, _, rfl⟩ := List.mem_map.1 ho; exact fun h => by cases h)

theorem unloadTemplates_bus {m m' : Plugin.Manager} (h : Plugin.unloadTemplates m = .ok () m') : m'.bus = m.bus := by
  unfold Plugin.unloadTemplates at h
  split at h
  · cases h; rfl
  · split at h
    · split at h <;> cases h; rfl
    · cases h
    · cases h
    · cases h

theorem setup_no_throw {env : Plugin.Env} {st st' : St} {e : Exn} : setup env st ≠ .throw e st' := by
  have : ∀ (ps : List Str) (m m' : Plugin.Manager), Plugin.loadAll env ps m ≠ .throw e m' := by
    intro ps
    induction ps with
    | nil => intro m m' h; cases h
    | cons p ps ih =>
      intro m m' h
      rw [Plugin.loadAll] at h
      split at h
      · exact ih _ _ h
      · rename_i hl; exact Plugin.loadTemplate_no_throw hl
      · cases h
      · cases h
  intro h
  unfold setup onMgr Plugin.loadTemplates at h
  split at h
  · cases h
  · cases h; rename_i hl; exact this _ _ _ hl
  · cases h
  · cases h

/-- What happens while the root bus runs cannot reach the plugin manager's private members; it may change the bus
hierarchy. -/
def Outside (run : Nat → St → Plugin.Out St Unit) : Prop :=
  ∀ b s s', Out.Ends (run b s) s' → s'.mgr.templates = s.mgr.templates ∧ s'.mgr.log = s.mgr.log ∧ s'.mgr.bus = s.mgr.bus

/-- When `Start` has returned, the plugin manager still refers to the root bus, and so the bus lives until the host is
destroyed, which releases that reference and does nothing else. -/
theorem C105_after_return {env : Plugin.Env} {tok : Str → Option Json} {early : Bool}
    {run : Nat → St → Plugin.Out St Unit} {files : List Str} {paths : List Str} {w : Bus.World} {st' : St}
    (hrun : Outside run) (hd : DistinctIds env (templateFiles env paths))
    (h : start env tok early run files (create (emptyManager paths none w)) = .ok () st') :
    st'.mgr.bus = some 0 ∧ destroy st' = .ok () { st' with mgr := { st'.mgr with bus := none } } := by
  have hrel := C78_everything_released (fun b s s' hs => ⟨(hrun b s s' (.inl ⟨_, hs⟩)).1, (hrun b s s' (.inl ⟨_, hs⟩)).2.1⟩) hd h
  constructor
  · unfold start at h
    split at h
    · rename_i st1 h1
      split at h
      · rename_i st2 h2
        split at h
        · cases h
        · split at h
          · rename_i b hb _ st3 h3
            split at h
            · rename_i st4 h4
              cases h
              unfold teardown at h4
              split at h4 <;> try contradiction
              split at h4 <;> try contradiction
              unfold onMgr at h4
              split at h4 <;> cases h4
              rename_i m1 hu
              show m1.bus = _
              rw [unloadTemplates_bus hu]
              show st3.mgr.bus = _
              rw [(hrun _ _ _ (.inl ⟨_, h3⟩)).2.2]
              exact (config_balance hd h1 (.inl ⟨_, h2⟩)).2
            · rename_i hx; exact absurd h (hx _ _)
          · rename_i hx; exact absurd h (hx _ _)
      · rename_i hx; exact absurd h (hx _ _)
    · rename_i hx; exact absurd h (hx _ _)
  · have : Plugin.unloadTemplates st'.mgr = .ok () st'.mgr := by simp [Plugin.unloadTemplates, hrel.2.1]
    simp only [destroy, onMgr, Plugin.destroyManager, this]
    have hn := hrel.1
    cases st'
    simp only at hn
    subst hn
    rfl

/-- After `Start` has thrown, destroying the host makes up for the shutdown that was skipped: if the destructor comes to
its end, no template is left, every library has been closed as often as it was opened, and the bus is released. -/
theorem C105_after_throw {env : Plugin.Env} {tok : Str → Option Json} {early : Bool}
    {run : Nat → St → Plugin.Out St Unit} {files : List Str} {paths : List Str} {w : Bus.World} {st' st'' : St} {e : Exn}
    (hrun : Outside run) (hd : DistinctIds env (templateFiles env paths))
    (h : start env tok early run files (create (emptyManager paths none w)) = .throw e st')
    (hdes : destroy st' = .ok () st'') :
    st''.rootBus = none ∧ st''.mgr.bus = none ∧ st''.mgr.templates = [] ∧
      ∀ x, st''.mgr.log.count (.opened x) = st''.mgr.log.count (.closed x) := by
  have key : (∀ x, st'.mgr.log.count (.opened x) = st'.mgr.log.count (.closed x) + Plugin.holds x st'.mgr.templates) →
      st''.rootBus = none ∧ st''.mgr.bus = none ∧ st''.mgr.templates = [] ∧
      ∀ x, st''.mgr.log.count (.opened x) = st''.mgr.log.count (.closed x) := by
    intro hb
    rcases Plugin.first_bad st'.mgr.templates with hf | ⟨pre, x, post, he, hp, hx⟩
    · obtain ⟨s, h1, h2, h3, h4, h5⟩ := C105_destroyed st' hf
      rw [hdes] at h1
      cases h1
      refine ⟨h4, h5, h3, fun x => ?_⟩
      have hu := Plugin.unloadTemplates_count (Plugin.unloadTemplates_fine hf) x
      simp only at hu
      rw [← h2] at hu
      have := hb x
      omega
    · obtain ⟨c1, c2⟩ := C105_cannot_be_destroyed st' he hp hx
      by_cases ha : Alive x.2.2
      · rw [c2 ha] at hdes; cases hdes
      · rw [c1 ha] at hdes; cases hdes
  unfold start at h
  cases h1 : setup env { create (emptyManager paths none w) with runState := .running } with
  | ok _ st1 =>
    rw [h1] at h; simp only at h
    cases h2 : readFiles tok early files st1 with
    | ok _ st2 =>
      rw [h2] at h; simp only at h
      cases hb : st2.rootBus with
      | none => rw [hb] at h; cases h
      | some b =>
        rw [hb] at h; simp only at h
        cases h3 : run b st2 with
        | ok _ st3 =>
          rw [h3] at h; simp only at h
          cases h4 : teardown st3 with
          | ok _ st4 => rw [h4] at h; cases h
          | throw e4 st4 =>
            rw [h4] at h; cases h
            rw [C105_after_failed_teardown h4] at hdes
            cases hdes
          | ub => rw [h4] at h; cases h
          | terminate => rw [h4] at h; cases h
        | throw e st3 =>
          rw [h3] at h; cases h
          obtain ⟨r1, r2, _⟩ := hrun _ _ _ (.inr ⟨_, h3⟩)
          refine key ?_
          rw [r1, r2]
          exact (config_balance hd h1 (.inl ⟨_, h2⟩)).1
        | ub => rw [h3] at h; cases h
        | terminate => rw [h3] at h; cases h
    | throw e st2 =>
      rw [h2] at h; cases h
      exact key (config_balance hd h1 (.inr ⟨_, h2⟩)).1
    | ub => rw [h2] at h; cases h
    | terminate => rw [h2] at h; cases h
  | throw e st1 => exact absurd h1 setup_no_throw
  | ub => rw [h1] at h; cases h
  | terminate => rw [h1] at h; cases h

/-! ### The hypotheses are met -/

/-- What is seen of a host after its `Start` has returned or thrown, and again after its destruction: the events, and
whether the plugin manager has no bus. `none`: the process does not get there. -/
def fate (deinit : Option Exn) (config : Json) (r : St → Plugin.Out St Unit) :
    Option (Bool × List Plugin.Ev × Bool × Option (List Plugin.Ev × Bool)) :=
  let lib : Plugin.Lib := ⟨some (some (bs "A")), some (fun _ => .object ⟨none, deinit⟩)⟩
  let env : Plugin.Env :=
    { hostEnv with dlopen := fun p => if p = bs "/p/libplugin_a.so" then some (1, lib) else none }
  let after (st : St) := match destroy st with
    | .ok _ st' => some (st'.mgr.log, st'.mgr.bus.isNone)
    | _ => none
  match start env (fun _ => some config) false (fun _ s => r s) [bs "c"]
      (create (emptyManager [bs "/p"] none Plugin.freshWorld)) with
  | .ok _ st => some (true, st.mgr.log, st.mgr.bus.isNone, after st)
  | .throw _ st => some (false, st.mgr.log, st.mgr.bus.isNone, after st)
  | _ => none

/-- A normal run. -/
example : fate none hostConfig (fun s => .ok () s) =
    some (true, [.opened 1, .created (bs "A0"), .stopped (bs "A0"), .deinitialized (bs "A0"), .closed 1], false,
      some ([.opened 1, .created (bs "A0"), .stopped (bs "A0"), .deinitialized (bs "A0"), .closed 1], true)) := by
  decide +kernel

/-- A callback throws out of the root bus: the destructor shuts down. -/
example : fate none hostConfig (fun s => .throw .invalidOperation s) =
    some (false, [.opened 1, .created (bs "A0")], false,
      some ([.opened 1, .created (bs "A0"), .stopped (bs "A0"), .deinitialized (bs "A0"), .closed 1], true)) := by
  decide +kernel

/-- An instance whose `Deinitialize` throws: `Start` throws, and the process ends when the host is destroyed. -/
example : fate (some .invalidOperation) hostConfig (fun s => .ok () s) =
    some (false, [.opened 1, .created (bs "A0"), .stopped (bs "A0"), .deinitialized (bs "A0")], false, none) := by
  decide +kernel

/-- What the bus does in these runs stays outside the plugin manager. -/
example : Outside (fun _ s => .ok () s) ∧ Outside (fun _ s => .throw .invalidOperation s) := by
  constructor <;> rintro b s s' (⟨_, h⟩ | ⟨_, h⟩) <;> cases h <;> exact ⟨rfl, rfl, rfl⟩

/-- A template with a null instance, after a fine one. -/
example : Fine ⟨bs "A", none, [(bs "A0", some ⟨none, none⟩)]⟩ ∧ ¬ Alive ⟨bs "B", none, [(bs "B0", none)]⟩ ∧
    ¬ Fine ⟨bs "B", none, [(bs "B0", none)]⟩ := by
  refine ⟨?_, ?_, ?_⟩
  · intro e he
    rcases List.mem_singleton.1 he with rfl
    exact ⟨_, rfl, rfl⟩
  · intro h; exact h _ (List.mem_singleton.2 rfl) rfl
  · intro h; obtain ⟨i, h, _⟩ := h _ (List.mem_singleton.2 rfl); cases h

end LP.Host
