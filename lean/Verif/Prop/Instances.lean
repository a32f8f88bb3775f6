import Verif.Prop.Main
import Verif.Prop.Instantiate
/-!
# Every instance is stopped and deinitialised once (C109)
-/
namespace LP.Main
open Plugin (Ev Op Template Inst emptyManager templateFiles performAll unloadEvents unloaded Fine Manager)
open Host (St Outside setup readFiles teardown)

/-- Number of instances with a name in a template. -/
def held (n : Str) (t : Template) : Nat := t.instances.countP (fun i => i.1 == n && i.2.isSome)

/-- Number of instances with a name in the templates of a manager. -/
def weight (n : Str) (d : Dict (Nat × Template)) : Nat := (d.map (fun e => held n e.2.2)).sum

theorem weight_insert {n k : Str} {v : Nat × Template} {d : Dict (Nat × Template)} (hs : d.Sorted) :
    weight n (d.insert k v) + ((d.find k).map (fun e => held n e.2)).getD 0 = weight n d + held n v.2 := by
  induction d with
  | nil => simp [Dict.insert, weight]
  | cons x d ih =>
    obtain ⟨k', v'⟩ := x
    obtain ⟨hs1, hs2⟩ := List.pairwise_cons.1 hs
    rw [Dict.insert, Dict.find]
    by_cases hk : k = k'
    · subst hk
      simp [weight]; omega
    · rw [if_neg hk, if_neg (Ne.symm hk)]
      split
      · rename_i hlt
        have : Dict.find k d = none := by
          rw [Dict.find_eq_none]
          intro e he hek
          have := hs1 e he
          rw [hek] at this
          have := Str.lt_trans hlt this
          rw [Str.lt_irrefl] at this
          cases this
        simp [weight, this]; omega
      · have := ih hs2
        simp [weight] at this ⊢; omega

/-- What holds while the templates are loaded and the configuration is read. -/
structure Book (m : Manager) : Prop where
  sorted : m.templates.Sorted
  kept : ∀ n, m.log.count (.created n) = weight n m.templates
  once : ∀ n, m.log.count (.created n) ≤ if (m.world.bus 0).children.has n then 1 else 0
  bus : m.bus = some 0

theorem weight_unused {m : Manager} (hu : Unused m) (hs : m.templates.Sorted) (n : Str) : weight n m.templates = 0 := by
  have : ∀ e ∈ m.templates, held n e.2.2 = 0 := by
    intro e he
    obtain ⟨k, x, t⟩ := e
    simp [held, hu k x t (Dict.mem_find hs he)]
  unfold weight
  generalize m.templates = d at this
  induction d with
  | nil => rfl
  | cons e d ih =>
    simp [this e List.mem_cons_self, ih (fun e he => this e (List.mem_cons_of_mem _ he))]

/-- What loading leaves alone. -/
structure Early (m : Manager) : Prop where
  sorted : m.templates.Sorted
  none : ∀ n, m.log.count (.created n) = 0
  bus : m.bus = some 0

theorem early_load {env : Plugin.Env} {path : Str} {m m' : Manager} {r : Bool} (hu : Unused m) (hb : Early m)
    (h : Plugin.loadTemplate env path m = .ok r m') : Early m' := by
  have key : ∀ (l : List Ev), (∀ n, l.count (.created n) = 0) → ∀ n, (m.log ++ l).count (.created n) = 0 := by
    intro l hl n
    rw [List.count_append, hb.none, hl]
  unfold Plugin.loadTemplate Plugin.useLibrary at h
  split at h
  · split at h
    · cases h; exact hb
    · rename_i x lib _
      have k2 : ∀ n, ((m.log ++ [Ev.opened x]) ++ [Ev.closed x]).count (.created n) = 0 := by
        rw [List.append_assoc]; exact key _ (fun n => rfl)
      split at h
      · cases h; exact ⟨hb.sorted, k2, hb.bus⟩
      · cases h
      · rename_i id _
        split at h
        · cases h; exact ⟨hb.sorted, k2, hb.bus⟩
        · split at h
          · cases h; exact ⟨hb.sorted, k2, hb.bus⟩
          · simp only [Plugin.storeTemplate] at h
            split at h
            · cases h; exact ⟨Dict.insert_sorted hb.sorted, key _ (fun n => rfl), hb.bus⟩
            · rename_i o old hold
              have ht := hu id o old hold
              simp only [Plugin.destroyTemplate, Plugin.unload, ht, Plugin.stopAll, Plugin.deinitAll] at h
              cases h
              exact ⟨Dict.insert_sorted hb.sorted, key _ (fun n => rfl), hb.bus⟩
  · cases h; exact hb

theorem early_loadAll {env : Plugin.Env} {ps : List Str} {m m' : Manager} (hq : Quiet m.log) (hu : Unused m) (hb : Early m)
    (h : Plugin.loadAll env ps m = .ok () m') : Book m' := by
  induction ps generalizing m with
  | nil =>
    cases h
    exact ⟨hb.sorted, fun n => by rw [hb.none, weight_unused hu hb.sorted], fun n => by rw [hb.none]; exact Nat.zero_le _, hb.bus⟩
  | cons p ps ih =>
    rw [Plugin.loadAll] at h
    split at h <;> try contradiction
    rename_i h1
    obtain ⟨k1, k2⟩ := quiet_load hq hu h1
    exact ih k1 k2 (early_load hu hb h1) h

/-- What one instantiation does: nothing that counts, a null entry under a new name, or a new instance under a new name,
which then is the name of a child bus as well. -/
theorem instantiate_effect {early : Bool} {b : Nat} {s s' : Plugin.TS}
    (h : (∃ a, Plugin.instantiate early (some b) s = .ok a s') ∨ ∃ e, Plugin.instantiate early (some b) s = .throw e s') :
    (∀ n, (s.world.bus b).children.has n = true → (s'.world.bus b).children.has n = true) ∧
    ((s'.log = s.log ∧ (s'.tmpl.instances = s.tmpl.instances ∨ ∃ name, s.tmpl.instances.find name = none ∧
        s'.tmpl.instances = s.tmpl.instances.insert name none)) ∨
      ∃ name i, s.tmpl.instances.find name = none ∧ s'.tmpl.instances = s.tmpl.instances.insert name (some i) ∧
        s'.log = s.log ++ [.created name] ∧ (s.world.bus b).children.has name = false ∧
        (s'.world.bus b).children.has name = true) := by
  unfold Plugin.instantiate at h
  simp only at h
  split at h
  · rcases h with ⟨_, h⟩ | ⟨_, h⟩ <;> cases h
  · rename_i index hi
    have hfree : s.tmpl.instances.find (s.tmpl.name index) = none := by
      have := (Plugin.freeIndex_some hi).2.2.1
      unfold Template.indexedInstanceExists Dict.has at this
      cases hf : s.tmpl.instances.find (s.tmpl.name index) with
      | none => rfl
      | some x => rw [hf] at this; cases this
    cases hc : Bus.createChildBus b (s.tmpl.name index) s.world with
    | throw e w =>
      rw [hc] at h
      have hw : w = s.world := by
        unfold Bus.createChildBus at hc
        split at hc
        · cases hc; rfl
        · split at hc
          · cases hc; rfl
          · split at hc <;> cases hc; rfl
      rcases h with ⟨_, h⟩ | ⟨_, h⟩ <;> cases h
      rw [hw]
      exact ⟨fun n h => h, .inl ⟨rfl, .inl rfl⟩⟩
    | ub => rw [hc] at h; rcases h with ⟨_, h⟩ | ⟨_, h⟩ <;> cases h
    | fuel => rw [hc] at h; rcases h with ⟨_, h⟩ | ⟨_, h⟩ <;> cases h
    | ok c w =>
      rw [hc] at h
      obtain ⟨c1, _, _, c4⟩ := Plugin.createChildBus_ok hc
      have hch : (w.bus b).children = (s.world.bus b).children.insert (s.tmpl.name index) s.world.nb := by
        rw [c4]; simp [Bus.World.setBus]
      have hgrow : ∀ n, (s.world.bus b).children.has n = true → (w.bus b).children.has n = true := by
        intro n hn
        rw [hch]
        unfold Dict.has at hn ⊢
        rw [Dict.find_insert]
        split
        · rfl
        · exact hn
      have hnew : (w.bus b).children.has (s.tmpl.name index) = true := by
        rw [hch]; simp [Dict.has]
      have hold : (s.world.bus b).children.has (s.tmpl.name index) = false := by simp [Dict.has, c1]
      simp only at h
      split at h
      · rcases h with ⟨_, h⟩ | ⟨_, h⟩ <;> cases h
        split
        · exact ⟨hgrow, .inl ⟨rfl, .inr ⟨_, hfree, rfl⟩⟩⟩
        · exact ⟨hgrow, .inl ⟨rfl, .inl rfl⟩⟩
      · split at h
        · rcases h with ⟨_, h⟩ | ⟨_, h⟩ <;> cases h
          split
          · exact ⟨hgrow, .inl ⟨rfl, .inr ⟨_, hfree, rfl⟩⟩⟩
          · exact ⟨hgrow, .inl ⟨rfl, .inl rfl⟩⟩
        · rcases h with ⟨_, h⟩ | ⟨_, h⟩ <;> cases h
          exact ⟨hgrow, .inl ⟨rfl, .inr ⟨_, hfree, rfl⟩⟩⟩
        · rcases h with ⟨_, h⟩ | ⟨_, h⟩ <;> cases h
          exact ⟨hgrow, .inr ⟨_, _, hfree, rfl, rfl, hold, hnew⟩⟩

theorem held_insert {n name : Str} {t t' : Template} {o : Option Inst} (hf : t.instances.find name = none)
    (h : t'.instances = t.instances.insert name o) : held n t' = held n t + if name = n ∧ o.isSome then 1 else 0 := by
  unfold held
  rw [h, Plugin.countP_insert_none _ hf]
  by_cases hn : name = n <;> cases ho : o.isSome <;> simp [hn]

theorem book_instantiate {early : Bool} {id : Str} {m m' : Manager} (hb : Book m)
    (h : (∃ a, Plugin.instantiateTemplate early id none m = .ok a m') ∨
      ∃ e, Plugin.instantiateTemplate early id none m = .throw e m') : Book m' := by
  unfold Plugin.instantiateTemplate at h
  simp only at h
  cases hf : m.templates.find id with
  | none =>
    rw [hf] at h
    rcases h with ⟨_, h⟩ | ⟨_, h⟩ <;> cases h; exact hb
  | some v =>
    obtain ⟨x, t⟩ := v
    rw [hf, hb.bus] at h
    have key : ∀ s', ((∃ a, Plugin.instantiate early (some 0) ⟨t, m.world, m.log⟩ = .ok a s') ∨
        ∃ e, Plugin.instantiate early (some 0) ⟨t, m.world, m.log⟩ = .throw e s') →
        Book { m with templates := m.templates.insert id (x, s'.tmpl), world := s'.world, log := s'.log } := by
      intro s' hs
      obtain ⟨hg, hc⟩ := instantiate_effect hs
      simp only at hg hc
      have hw := fun n => weight_insert (n := n) (k := id) (v := (x, s'.tmpl)) hb.sorted
      simp only [hf, Option.map_some, Option.getD_some] at hw
      rcases hc with ⟨hl, hi⟩ | ⟨name, i, h1, h2, h3, h4, h5⟩
      · have hh : ∀ n, held n s'.tmpl = held n t := by
          intro n
          rcases hi with hi | ⟨name, h1, h2⟩
          · unfold held; rw [hi]
          · rw [held_insert h1 h2]; simp
        refine ⟨Dict.insert_sorted hb.sorted, fun n => ?_, fun n => ?_, hb.bus⟩
        · show s'.log.count _ = _
          have := hw n
          have := hh n
          rw [hl, hb.kept]
          show _ = weight n (m.templates.insert id (x, s'.tmpl))
          omega
        · show s'.log.count _ ≤ if (s'.world.bus 0).children.has n then 1 else 0
          rw [hl]
          have h1 := hb.once n
          by_cases hn : (m.world.bus 0).children.has n = true
          · rw [if_pos hn] at h1; rw [if_pos (hg n hn)]; exact h1
          · rw [if_neg hn] at h1; omega
      · refine ⟨Dict.insert_sorted hb.sorted, fun n => ?_, fun n => ?_, hb.bus⟩
        · show s'.log.count _ = weight n (m.templates.insert id (x, s'.tmpl))
          have e1 := hw n
          have e2 := held_insert (n := n) h1 h2
          rw [h3, List.count_append, hb.kept]
          by_cases hn : name = n
          · subst hn
            simp at e2 ⊢; omega
          · simp [hn] at e2 ⊢; omega
        · show s'.log.count _ ≤ if (s'.world.bus 0).children.has n then 1 else 0
          rw [h3, List.count_append]
          have k1 := hb.once n
          by_cases hn : name = n
          · subst hn
            rw [h4] at k1
            simp [h5] at k1 ⊢
            omega
          · have hc : List.count (Ev.created n) [Ev.created name] = 0 := by simp [hn]
            rw [hc]
            by_cases hn : (m.world.bus 0).children.has n = true
            · rw [if_pos hn] at k1; rw [if_pos (hg n hn)]; exact k1
            · rw [if_neg hn] at k1; omega
    cases hi : Plugin.instantiate early (some 0) ⟨t, m.world, m.log⟩ with
    | ok a s' =>
      obtain ⟨name, i⟩ := a
      simp only [hi] at h
      rcases h with ⟨_, h⟩ | ⟨_, h⟩ <;> cases h
      have := key s' (.inl ⟨_, hi⟩)
      rw [hb.bus] at this
      exact this
    | throw e s' =>
      simp only [hi] at h
      rcases h with ⟨_, h⟩ | ⟨_, h⟩ <;> cases h
      have := key s' (.inr ⟨_, hi⟩)
      rw [hb.bus] at this
      exact this
    | ub => simp only [hi] at h; rcases h with ⟨_, h⟩ | ⟨_, h⟩ <;> cases h
    | terminate => simp only [hi] at h; rcases h with ⟨_, h⟩ | ⟨_, h⟩ <;> cases h

theorem book_ops {env : Plugin.Env} {ops : List Op} {m m' : Manager} (hb : Book m)
    (ho : ∀ op ∈ ops, ∃ early id, op = Op.instantiate early id none) (h : performAll env ops m = some m') : Book m' := by
  induction ops generalizing m with
  | nil => cases h; exact hb
  | cons op ops ih =>
    obtain ⟨early, id, rfl⟩ := ho op List.mem_cons_self
    simp only [performAll, Plugin.perform] at h
    cases hi : Plugin.instantiateTemplate early id none m with
    | ok a m1 =>
      rw [hi] at h
      exact ih (book_instantiate hb (.inl ⟨_, hi⟩)) (fun op hop => ho op (List.mem_cons_of_mem _ hop)) h
    | throw e m1 =>
      rw [hi] at h
      exact ih (book_instantiate hb (.inr ⟨_, hi⟩)) (fun op hop => ho op (List.mem_cons_of_mem _ hop)) h
    | ub => rw [hi] at h; cases h
    | terminate => rw [hi] at h; cases h

theorem book_config {env : Plugin.Env} {tok : Str → Option Json} {early : Bool} {files paths : List Str}
    {w : Bus.World} {st1 st2 : St}
    (h1 : setup env { Host.create (emptyManager paths none w) with runState := .running } = .ok () st1)
    (h2 : Host.Out.Ends (readFiles tok early files st1) st2) : Book st2.mgr := by
  obtain ⟨_, _, ops, u3, u4⟩ := Host.readFiles_uses (env := env) h2
  refine book_ops ?_ u3 u4
  unfold setup Host.onMgr at h1
  simp only [Host.create, Plugin.loadTemplates, Plugin.setBus, emptyManager] at h1
  split at h1 <;> cases h1
  refine early_loadAll (env := env) (m := { searchPaths := paths, bus := some 0, templates := [], world := w, log := [] })
    (fun name => by simp) (fun i h t hf => by cases hf) ⟨Dict.sorted_nil, fun _ => rfl, rfl⟩ ?_ (ps := templateFiles env paths)
  assumption

/-! ## Unloading -/

theorem held_fine {n : Str} {t : Template} (h : Fine t) : held n t = t.instances.keys.count n := by
  unfold held Dict.keys
  rw [List.count, List.countP_map]
  refine List.countP_congr (fun e he => ?_)
  obtain ⟨i, hi, _⟩ := h e he
  simp [hi]

theorem count_unloadEvents (n : Str) (names : List Str) :
    (unloadEvents names).count (.stopped n) = names.count n ∧ (unloadEvents names).count (.deinitialized n) = names.count n ∧
      (unloadEvents names).count (.created n) = 0 := by
  unfold unloadEvents
  induction names with
  | nil => simp
  | cons a l ih =>
    obtain ⟨h1, h2, h3⟩ := ih
    simp only [List.map_cons, List.count_append, List.cons_append, List.count_cons] at h1 h2 h3 ⊢
    by_cases ha : a = n <;> simp [ha] <;> omega

theorem count_unloaded {n : Str} {d : Dict (Nat × Template)} (h : ∀ e ∈ d, Fine e.2.2) :
    (unloaded d).count (.stopped n) = weight n d ∧ (unloaded d).count (.deinitialized n) = weight n d ∧
      (unloaded d).count (.created n) = 0 := by
  induction d with
  | nil => simp [unloaded, weight]
  | cons e d ih =>
    obtain ⟨h1, h2, h3⟩ := ih (fun e he => h e (List.mem_cons_of_mem _ he))
    obtain ⟨k1, k2, k3⟩ := count_unloadEvents n e.2.2.instances.keys
    have k := held_fine (n := n) (h e List.mem_cons_self)
    simp only [unloaded, weight] at h1 h2 h3 ⊢
    simp only [List.flatMap_cons, List.count_append, List.map_cons, List.sum_cons, k1, k2, k3, h1, h2, h3, k]
    simp

theorem unloadTemplates_ok {m m' : Manager} (h : Plugin.unloadTemplates m = .ok () m') :
    (∀ e ∈ m.templates, Fine e.2.2) ∧ m'.log = m.log ++ unloaded m.templates := by
  rcases Plugin.first_bad m.templates with hf | ⟨pre, x, post, he, hp, hx⟩
  · refine ⟨hf, ?_⟩
    rw [Plugin.unloadTemplates_fine hf] at h
    cases h; rfl
  · obtain ⟨h1, h2⟩ := Plugin.unloadTemplates_bad he hp hx
    by_cases ha : Plugin.Alive x.2.2
    · obtain ⟨e, l, h3⟩ := h2 ha
      rw [h3] at h; cases h
    · rw [h1 ha] at h; cases h

theorem parts {env : Plugin.Env} {tok : Str → Option Json} {early : Bool}
    {run : Nat → St → Plugin.Out St Unit} {files paths : List Str} {w : Bus.World} {st' : St}
    (hrun : Outside run)
    (h : Host.start env tok early run files (Host.create (emptyManager paths none w)) = .ok () st') :
    ∃ up d, st'.mgr.log = up ++ unloaded d ∧ Quiet up ∧ (∀ e ∈ d, Fine e.2.2) ∧
      ∀ n, up.count (.created n) ≤ 1 ∧ up.count (.created n) = weight n d := by
  unfold Host.start at h
  cases h1 : setup env { Host.create (emptyManager paths none w) with runState := .running } with
  | ok _ st1 =>
    rw [h1] at h; simp only at h
    cases h2 : readFiles tok early files st1 with
    | ok _ st2 =>
      rw [h2] at h; simp only at h
      have hq := quiet_config h1 (.inl ⟨_, h2⟩)
      have hk := book_config h1 (.inl ⟨_, h2⟩)
      cases hb : st2.rootBus with
      | none => rw [hb] at h; cases h
      | some b =>
        rw [hb] at h; simp only at h
        cases h3 : run b st2 with
        | ok _ st3 =>
          rw [h3] at h; simp only at h
          obtain ⟨t, l, _⟩ := hrun _ _ _ (.inl ⟨_, h3⟩)
          cases h4 : teardown st3 with
          | ok _ st4 =>
            rw [h4] at h; cases h
            unfold teardown at h4
            split at h4 <;> try contradiction
            split at h4 <;> try contradiction
            unfold Host.onMgr at h4
            split at h4 <;> cases h4
            rename_i m1 hu
            obtain ⟨hf, hl⟩ := unloadTemplates_ok hu
            simp only at hf hl
            rw [t] at hf
            refine ⟨st2.mgr.log, st2.mgr.templates, by rw [← l, ← t]; exact hl, hq, hf, fun n => ⟨?_, hk.kept n⟩⟩
            have := hk.once n
            split at this <;> omega
          | throw e4 st4 => rw [h4] at h; cases h
          | ub => rw [h4] at h; cases h
          | terminate => rw [h4] at h; cases h
        | throw e3 st3 => rw [h3] at h; cases h
        | ub => rw [h3] at h; cases h
        | terminate => rw [h3] at h; cases h
    | throw e2 st2 => rw [h2] at h; cases h
    | ub => rw [h2] at h; cases h
    | terminate => rw [h2] at h; cases h
  | throw e st1 => rw [h1] at h; cases h
  | ub => rw [h1] at h; cases h
  | terminate => rw [h1] at h; cases h

theorem templates_gone {env : Plugin.Env} {tok : Str → Option Json} {early : Bool}
    {run : Nat → St → Plugin.Out St Unit} {files paths : List Str} {w : Bus.World} {st' : St}
    (h : Host.start env tok early run files (Host.create (emptyManager paths none w)) = .ok () st') :
    st'.mgr.templates = [] := by
  unfold Host.start at h
  split at h
  · split at h
    · split at h
      · cases h
      · split at h
        · split at h
          · rename_i h4
            cases h
            unfold teardown at h4
            split at h4 <;> try contradiction
            split at h4 <;> try contradiction
            unfold Host.onMgr at h4
            split at h4 <;> cases h4
            rename_i hu
            unfold Plugin.unloadTemplates at hu
            split at hu
            · rename_i he; cases hu; exact List.isEmpty_iff.1 he
            · split at hu <;> try contradiction
              split at hu <;> cases hu
              rfl
          · rename_i hx; exact absurd h (hx _ _)
        · rename_i hx; exact absurd h (hx _ _)
    · rename_i hx; exact absurd h (hx _ _)
  · rename_i hx; exact absurd h (hx _ _)

/-- When `Start` has returned, what happened falls in two parts. In the first, nothing is stopped, and every name is
given to at most one instance. In the second nothing is created, and every instance is stopped once and deinitialised
once. -/
theorem C109_once {env : Plugin.Env} {tok : Str → Option Json} {early : Bool}
    {run : Nat → St → Plugin.Out St Unit} {files paths : List Str} {w : Bus.World} {st' : St}
    (hrun : Outside run)
    (h : Host.start env tok early run files (Host.create (emptyManager paths none w)) = .ok () st') :
    ∃ up down, st'.mgr.log = up ++ down ∧ Quiet up ∧
      ∀ n, up.count (.created n) ≤ 1 ∧ down.count (.created n) = 0 ∧
        down.count (.stopped n) = up.count (.created n) ∧ down.count (.deinitialized n) = up.count (.created n) := by
  obtain ⟨up, d, e, hq, hf, hw⟩ := parts hrun h
  refine ⟨up, _, e, hq, fun n => ?_⟩
  obtain ⟨c1, c2, c3⟩ := count_unloaded (n := n) hf
  obtain ⟨w1, w2⟩ := hw n
  exact ⟨w1, c3, by rw [c1, w2], by rw [c2, w2]⟩

/-- In the list, every beginning has at most as many of `a` as of `b`. -/
def Before (b a : Ev) (l : List Ev) : Prop := ∀ q r, l = q ++ r → q.count a ≤ q.count b

theorem before_append {b a : Ev} {l l' : List Ev} (h : Before b a l) (h' : Before b a l') : Before b a (l ++ l') := by
  intro q r e
  rcases List.append_eq_append_iff.1 e with ⟨x, hx, hx'⟩ | ⟨x, hx, hx'⟩
  · have h1 := h l [] (by simp)
    have h2 := h' x r hx'
    rw [hx]
    simp only [List.count_append]
    omega
  · exact h q x hx

theorem before_unloadEvents (n : Str) (names : List Str) : Before (.stopped n) (.deinitialized n) (unloadEvents names) := by
  intro q r e
  unfold unloadEvents at e
  have c0 : ∀ l : List Str, (l.map Ev.stopped).count (.deinitialized n) = 0 := by
    intro l
    induction l with
    | nil => rfl
    | cons a l ih => simpa using ih
  have c1 : ∀ l : List Str, (l.map Ev.stopped).count (.stopped n) = l.count n := by
    intro l
    induction l with
    | nil => rfl
    | cons a l ih => by_cases ha : a = n <;> simp_all
  have c2 : ∀ l : List Str, (l.map Ev.deinitialized).count (.deinitialized n) = l.count n := by
    intro l
    induction l with
    | nil => rfl
    | cons a l ih => by_cases ha : a = n <;> simp_all
  rcases List.append_eq_append_iff.1 e with ⟨x, hx, hx'⟩ | ⟨x, hx, hx'⟩
  · rw [hx]
    have : x.count (.deinitialized n) ≤ names.count n := by
      rw [← c2 names, hx', List.count_append]; omega
    simp only [List.count_append, c0, c1]
    omega
  · have : q.count (.deinitialized n) ≤ 0 := by
      rw [← c0 names, hx, List.count_append]; omega
    omega

theorem before_unloaded (n : Str) (d : Dict (Nat × Template)) : Before (.stopped n) (.deinitialized n) (unloaded d) := by
  induction d with
  | nil =>
    intro q r e
    have : q = [] := by cases q <;> simp_all [unloaded]
    simp [this]
  | cons e d ih =>
    unfold unloaded at ih ⊢
    rw [List.flatMap_cons]
    refine before_append (before_append (before_unloadEvents n _) ?_) ih
    intro q r e
    have : q.count (.deinitialized n) ≤ 0 := by
      rw [show 0 = List.count (Ev.deinitialized n) [Ev.closed _] from rfl, e, List.count_append]; omega
    omega

/-- In this order: at no time have more instances of a name been deinitialised than stopped, or stopped than created. -/
theorem C109_order {env : Plugin.Env} {tok : Str → Option Json} {early : Bool}
    {run : Nat → St → Plugin.Out St Unit} {files paths : List Str} {w : Bus.World} {st' : St}
    (hrun : Outside run)
    (h : Host.start env tok early run files (Host.create (emptyManager paths none w)) = .ok () st')
    (n : Str) (past future : List Ev) (hl : st'.mgr.log = past ++ future) :
    past.count (.deinitialized n) ≤ past.count (.stopped n) ∧ past.count (.stopped n) ≤ past.count (.created n) := by
  obtain ⟨up, d, e, hq, hf, hw⟩ := parts hrun h
  obtain ⟨hs, hdn⟩ := hq n
  obtain ⟨c1, c2, c3⟩ := count_unloaded (n := n) hf
  have u1 : up.count (.stopped n) = 0 := List.count_eq_zero.2 hs
  have u2 : up.count (.deinitialized n) = 0 := List.count_eq_zero.2 hdn
  rw [e] at hl
  rcases List.append_eq_append_iff.1 hl with ⟨x, hx, hx'⟩ | ⟨x, hx, hx'⟩
  · have b := before_unloaded n d x future hx'
    have : x.count (.stopped n) ≤ weight n d := by rw [← c1, hx', List.count_append]; omega
    have := (hw n).2
    rw [hx]
    simp only [List.count_append]
    omega
  · have h1 : past.count (.stopped n) ≤ 0 := by rw [← u1, hx, List.count_append]; omega
    have h2 : past.count (.deinitialized n) ≤ 0 := by rw [← u2, hx, List.count_append]; omega
    omega

/-- The same for the program as a whole: if it ends with status 0, every instance it ever created was stopped once and
deinitialised once. -/
theorem C109_program {env : Plugin.Env} {tok : Str → Option Json} {early : Bool}
    {run : Nat → St → Plugin.Out St Unit} {contents : Str → Option Str} {args : List Str} {status : Nat} {log : List Ev}
    (hl : Located env.fs) (hrun : Outside run) (h : main env tok early run contents args = .exit status log) (n : Str) :
    log.count (.created n) ≤ 1 ∧ log.count (.stopped n) = log.count (.created n) ∧
      log.count (.deinitialized n) = log.count (.created n) := by
  obtain ⟨paths, w, hs, _, hc⟩ := C108_constructed hl [] (files args)
  rw [List.nil_append] at hc
  unfold main at h
  rw [hc] at h
  simp only at h
  split at h <;> try contradiction
  rename_i st1 h1
  obtain ⟨up, down, e, hq, hn⟩ := C109_once hrun h1
  obtain ⟨k1, k2, k3, k4⟩ := hn n
  have u1 : up.count (.stopped n) = 0 := List.count_eq_zero.2 (hq n).1
  have u2 : up.count (.deinitialized n) = 0 := List.count_eq_zero.2 (hq n).2
  have ht := templates_gone h1
  have hd : Host.destroy st1 = .ok () { st1 with rootBus := none, mgr := { st1.mgr with bus := none } } := by
    have : Plugin.unloadTemplates st1.mgr = .ok () st1.mgr := by simp [Plugin.unloadTemplates, ht]
    simp only [Host.destroy, Host.onMgr, Plugin.destroyManager, this]
  rw [hd] at h
  cases h
  show st1.mgr.log.count _ ≤ 1 ∧ st1.mgr.log.count _ = st1.mgr.log.count _ ∧ st1.mgr.log.count _ = st1.mgr.log.count _
  rw [e]
  simp only [List.count_append]
  omega

/-! ## A case -/

/-- Two entries of the same type. -/
def twice : Json :=
  .object [(bs "plugins", .array [.object [(bs "type", .string (bs "A"))], .object [(bs "type", .string (bs "A"))]])]

example : seen (main env1 (fun _ => some twice) false (fun _ s => .ok () s) disk [bs "c"]) =
    some (true, [.opened 1, .created (bs "A0"), .created (bs "A1"), .stopped (bs "A0"), .stopped (bs "A1"),
      .deinitialized (bs "A0"), .deinitialized (bs "A1"), .closed 1]) := by decide +kernel

end LP.Main
