import Verif.Lemma.LampPost3
import Verif.Lemma.Canon
import Verif.Lemma.Json
import Verif.Prop.Plugin
/-!
# Configuration processing (C63)
-/
namespace LP.Host
open Plugin (Out)

theorem Keeps.recenter {c c' : Nat} {st : St} {sto : Store} {ns : List (Note Tree)} (h : Keeps c st sto ns)
    (hc : st.vars ≤ c') : Keeps c' st sto ns :=
  ⟨h.sim, h.notes, fun n hn x hx => ⟨(h.vars n hn x hx).1, by have := (h.vars n hn x hx).1; omega⟩⟩

theorem Reached.keeps {st : St} (h : Reached st) : ∃ sto ns, Keeps st.vars st sto ns := by
  induction h with
  | new mgr => exact ⟨fun _ => none, [], Sim.init, rfl, fun n hn => by cases hn⟩
  | @read tok early text st st' _ hr ih =>
    obtain ⟨sto, ns, hk⟩ := ih
    obtain ⟨t, _, x, v', _, he⟩ := file_spec tok early text hk
    rw [hr] at he
    cases x with
    | returns => obtain ⟨s1, sto', h1, _, h3, _⟩ := he; cases h1; exact ⟨sto', _, h3.recenter (Nat.le_refl _)⟩
    | throws e => obtain ⟨s1, sto', h1, _⟩ := he; cases h1
    | undefined => cases he
  | @threw tok early text e st st' _ hr ih =>
    obtain ⟨sto, ns, hk⟩ := ih
    obtain ⟨t, _, x, v', _, he⟩ := file_spec tok early text hk
    rw [hr] at he
    cases x with
    | returns => obtain ⟨s1, sto', h1, _⟩ := he; cases h1
    | throws e => obtain ⟨s1, sto', h1, _, h3, _⟩ := he; cases h1; exact ⟨sto', _, h3.recenter (Nat.le_refl _)⟩
    | undefined => cases he
  | other mgr rb rs _ ih =>
    obtain ⟨sto, ns, hk⟩ := ih
    exact ⟨sto, ns, hk.sim, hk.notes, hk.vars⟩

theorem Stands.unique {d : DState} {a : Note Nat} {b b' : Note Tree} (h : Stands d a b) (h' : Stands d a b') : b = b' := by
  cases a <;> cases b <;> simp only [Stands] at h <;> cases b' <;> simp only [Stands] at h'
  · obtain ⟨rfl, h1⟩ := h; obtain ⟨rfl, h2⟩ := h'; rw [Holds.unique h1 h2]
  · rw [← h, ← h']
  · obtain ⟨rfl, h1⟩ := h; obtain ⟨rfl, h2⟩ := h'; rw [Holds.unique h1 h2]

theorem Shows.unique {st : St} {v v' : View} (h : Shows st v) (h' : Shows st v') : v = v' := by
  obtain ⟨m, n⟩ := v
  obtain ⟨m', n'⟩ := v'
  obtain ⟨h1, h2, h3⟩ := h
  obtain ⟨h1', h2', h3'⟩ := h'
  simp only at h1 h2 h3 h1' h2' h3'
  have : n = n' := by
    apply List.ext_getElem (by omega)
    intro i hi hi'
    have ha : st.notes[i]? = some (st.notes[i]'(by omega)) := List.getElem?_eq_getElem (by omega)
    exact (h3 i _ _ ha (List.getElem?_eq_getElem hi)).unique (h3' i _ _ ha (List.getElem?_eq_getElem hi'))
  rw [← h1, ← h1', this]

theorem Parsed.unique {tok : Str → Option Json} {text : Str} {t u : Tree} (h : Parsed tok text t) (h' : Parsed tok text u) :
    t = u := by
  unfold Parsed at h h'
  split at h
  · rename_i j hj; rw [hj] at h'; exact h.unique h'
  · rename_i hj; rw [hj] at h'; rw [h, h']

/-- Reading a configuration file does exactly what its document asks for: nothing without "plugins"; the entries of a
list in order, as `Runs` says; an exception if "plugins" is not a list. -/
theorem C63_file_processed {tok : Str → Option Json} {early : Bool} {text : Str} {st : St} {v : View} {t : Tree}
    (hst : Reached st) (hv : Shows st v) (ht : Parsed tok text t) :
    ∃ x v', FileRuns early t v x v' ∧ EndsWith (readConfigurationFile tok early text st) x v' := by
  obtain ⟨sto, ns, hk⟩ := hst.keeps
  obtain ⟨t', ht', x, v', h1, h2⟩ := file_spec tok early text hk
  rw [hv.unique hk.shows, ht.unique ht']
  exact ⟨x, v', h1, h2.endsWith⟩

/-- Every state has a view. -/
theorem C63_views_exist {st : St} (hst : Reached st) : ∃ v, Shows st v := by
  obtain ⟨sto, ns, hk⟩ := hst.keeps
  exact ⟨_, hk.shows⟩

/-- A "plugins" entry that is not a non-empty JSON array makes reading the file throw, before any plugin is touched;
this includes the empty array, `{}` and `null`. -/
theorem C63_plugins_must_be_nonempty_list {tok : Str → Option Json} {early : Bool} {text : Str} {st : St} {v : View}
    {ds : List (Str × Tree)} {u : Tree} (hst : Reached st) (hv : Shows st v) (ht : Parsed tok text (.dict ds))
    (hu : Dict.find (bs "plugins") ds = some u) (hlist : ∀ es, u ≠ .list es) (hlen : ∀ es, u = .dict es → es.length < 2 ^ 31) :
    ∃ e st', readConfigurationFile tok early text st = .throw e st' ∧ Shows st' v ∧
      ((∃ es, u = .dict es) ∧ e = .indexOutOfBounds 0 ∨ (∀ es, u ≠ .dict es) ∧ e = .invalidOperation) := by
  obtain ⟨x, v', h1, h2⟩ := C63_file_processed (early := early) hst hv ht
  cases h1 with
  | noPlugins h => rw [h ds rfl] at hu; cases hu
  | scalar h h' h'' =>
    cases h; rw [h'] at hu; cases hu
    obtain ⟨st', h3, h4⟩ := h2
    refine ⟨_, st', h3, h4, .inr ⟨?_, rfl⟩⟩
    intro es he
    rcases h'' with h'' | ⟨_, h''⟩ <;> rw [he] at h'' <;> cases h''
  | dictionary h h' h'' =>
    cases h; rw [h'] at hu; cases hu
    obtain ⟨st', h3, h4⟩ := h2
    exact ⟨_, st', h3, h4, .inl ⟨⟨_, rfl⟩, rfl⟩⟩
  | @emptyDictionary ds' es h h' h'' =>
    cases h; rw [h'] at hu; cases hu
    rw [intCount_small (hlen _ rfl)] at h''
    have he : es = [] := List.eq_nil_of_length_eq_zero h''
    subst he
    exfalso
    unfold Parsed at ht
    split at ht
    · exact ht.no_empty (.dict (Dict.find_some_mem h') .emptyDict)
    · cases ht
  | list h h' h'' => cases h; rw [h'] at hu; cases hu; exact absurd rfl (hlist _)

/-- The JSON texts concerned: `"plugins"` followed by `[]`, `{}`, `null`, a number, a truth value or a string. -/
theorem C63_which_json {j : Json} {t : Tree} (h : JsonMeans j t) : (∃ es, t = .list es) ↔ ∃ js, j = .array js ∧ js ≠ [] := by
  constructor
  · rintro ⟨es, rfl⟩
    cases h with
    | array h1 => exact ⟨_, rfl, h1⟩
  · rintro ⟨js, rfl, hne⟩
    cases h with
    | emptyArray => exact absurd rfl hne
    | array => exact ⟨_, rfl⟩

/-! ### The usual case -/

/-- A manager whose templates are loaded and unused: the default bus is the running host's root bus without children,
every template can create instances that initialise without an exception, and no identifier ends in a digit. -/
structure Ready (m : Plugin.Manager) : Prop where
  bus : m.bus = some 0
  attached : (m.world.bus 0).attached = true
  empty : (m.world.bus 0).children = []
  unused : ∀ id h t, m.templates.find id = some (h, t) → t.ident = id ∧ t.instances = []
  works : ∀ id h t, m.templates.find id = some (h, t) → ∃ f, t.make = some f ∧ ∀ n, ∃ i, f n = .object i ∧ i.initExn = none
  named : ∀ id h t, m.templates.find id = some (h, t) → ∀ c, id.getLast? = some c → ¬ IsDigit c

/-- The same with `k id` instances of template `id`. -/
structure Serving (loaded : Str → Prop) (m : Plugin.Manager) (k : Str → Nat) : Prop where
  bus : m.bus = some 0
  attached : (m.world.bus 0).attached = true
  known : ∀ id, loaded id ↔ ∃ h t, m.templates.find id = some (h, t)
  ident : ∀ id h t, m.templates.find id = some (h, t) → t.ident = id ∧ ∀ j, t.indexedInstanceExists j = decide (j < k id)
  works : ∀ id h t, m.templates.find id = some (h, t) → ∃ f, t.make = some f ∧ ∀ n, ∃ i, f n = .object i ∧ i.initExn = none
  named : ∀ id, loaded id → ∀ c, id.getLast? = some c → ¬ IsDigit c
  free : ∀ id j, loaded id → k id ≤ j → (m.world.bus 0).children.find (id ++ natToStr j) = none

theorem Serving.instantiate {early : Bool} {loaded : Str → Prop} {m : Plugin.Manager} {k : Str → Nat} (h : Serving loaded m k)
    {id : Str} (hid : loaded id) (hk : k id < Plugin.intValues) :
    ∃ i m', Plugin.instantiateTemplate early id none m = .ok (some (id ++ natToStr (k id), i)) m' ∧ i.initExn = none ∧
      Serving loaded m' (fun s => if s = id then k s + 1 else k s) := by
  obtain ⟨hd, t, hf⟩ := (h.known id).1 hid
  obtain ⟨hi, hx⟩ := h.ident id hd t hf
  obtain ⟨f, hm, hg⟩ := h.works id hd t hf
  have hsearch : Plugin.freeIndex t.indexedInstanceExists Plugin.intValues 0 = some (k id) :=
    Plugin.freeIndex_eq _ _ (Nat.zero_le _) (by omega) (by rw [hx]; simp) (fun j _ hj => by rw [hx]; simpa using hj)
  have hname : t.name (k id) = id ++ natToStr (k id) := by rw [Plugin.Template.name, hi]
  have hne : id ++ natToStr (k id) ≠ [] := by rw [← hname]; exact Plugin.name_ne_nil t _
  have hch := h.free id (k id) hid (Nat.le_refl _)
  obtain ⟨i, hmk, hin⟩ := hg (id ++ natToStr (k id))
  obtain ⟨w', hcr, hw⟩ : ∃ w', Bus.createChildBus 0 (id ++ natToStr (k id)) m.world = .ok m.world.nb w' ∧
      w'.bus 0 = { m.world.bus 0 with children := (m.world.bus 0).children.insert (id ++ natToStr (k id)) m.world.nb } := by
    refine ⟨({ m.world with nb := m.world.nb + 1 }.setBus m.world.nb ⟨id ++ natToStr (k id), [], [], [], true, true⟩).setBus 0
      { m.world.bus 0 with children := (m.world.bus 0).children.insert (id ++ natToStr (k id)) m.world.nb }, ?_, ?_⟩
    · unfold Bus.createChildBus
      rw [if_neg hne, hch]
      simp only [h.attached, Bool.true_eq_false, if_false]
    · simp [Bus.World.setBus]
  let t' : Plugin.Template := { ident := t.ident, make := some f, instances := t.instances.insert (id ++ natToStr (k id)) (some i) }
  refine ⟨i, { m with templates := m.templates.insert id (hd, t'), world := w',
                      log := m.log ++ [.created (id ++ natToStr (k id))] }, ?_, hin, ?_⟩
  · unfold Plugin.instantiateTemplate
    simp only [hf, h.bus]
    unfold Plugin.instantiate
    simp only [hsearch, hname, hcr, hm, hmk]
    simp only [Option.map, h.bus]
    rfl
  · have hfind : ∀ id' h' t'', (m.templates.insert id (hd, t')).find id' = some (h', t'') →
        id' = id ∧ h' = hd ∧ t'' = t' ∨ id' ≠ id ∧ m.templates.find id' = some (h', t'') := by
      intro id' h' t'' hf'
      by_cases e : id' = id
      · subst e
        simp only [Dict.find_insert_self, Option.some.injEq, Prod.mk.injEq] at hf'
        exact .inl ⟨rfl, hf'.1.symm, hf'.2.symm⟩
      · rw [Dict.find_insert_ne (Ne.symm e)] at hf'; exact .inr ⟨e, hf'⟩
    refine ⟨h.bus, ?_, ?_, ?_, ?_, h.named, ?_⟩
    · simp only [hw]; exact h.attached
    · intro id'
      rw [h.known]
      by_cases e : id' = id
      · subst e; simp only [Dict.find_insert_self]; exact ⟨fun _ => ⟨_, _, rfl⟩, fun _ => ⟨_, _, hf⟩⟩
      · simp only [Dict.find_insert_ne (Ne.symm e)]
    · intro id' h' t'' hf'
      rcases hfind id' h' t'' hf' with ⟨rfl, rfl, rfl⟩ | ⟨e, hf'⟩
      · refine ⟨hi, fun j => ?_⟩
        simp only [t', Plugin.Template.indexedInstanceExists, Plugin.Template.name, Plugin.has_insert, if_true]
        have := hx j
        simp only [Plugin.Template.indexedInstanceExists, Plugin.Template.name] at this
        rw [this, hi, Bool.eq_iff_iff]
        simp only [Bool.or_eq_true, decide_eq_true_eq]
        constructor
        · rintro (h1 | h1)
          · have := natToStr_inj (List.append_cancel_left h1); omega
          · omega
        · intro h1
          by_cases e : j = k id'
          · left; rw [e]
          · right; omega
      · simp only [e, if_false]; exact h.ident id' h' t'' hf'
    · intro id' h' t'' hf'
      rcases hfind id' h' t'' hf' with ⟨rfl, rfl, rfl⟩ | ⟨e, hf'⟩
      · exact ⟨f, rfl, hg⟩
      · exact h.works id' h' t'' hf'
    · intro id' j hl hj
      simp only [hw]
      rw [Dict.find_insert_ne]
      · refine h.free id' j hl ?_
        by_cases e : id' = id
        · subst e; simp at hj; omega
        · simpa [e] using hj
      · intro heq
        by_cases e : id' = id
        · subst e
          have := natToStr_inj (List.append_cancel_left heq)
          simp at hj; omega
        · exact Plugin.C58_no_collision (h.named id hid) (h.named id' hl) (Ne.symm e) _ _ heq

theorem runs_serving {early : Bool} {loaded : Str → Prop} {es : List Tree} {v v' : View} {x : Ending} (h : Runs early es v x v') :
    ∀ (k : Str → Nat), Serving loaded v.1 k → (∀ e ∈ es, ¬ Malformed e) → (∀ id, k id + es.length ≤ Plugin.intValues) →
    x = .returns ∧ ∃ more k', v'.2 = v.2 ++ more ∧ Serving loaded v'.1 k' ∧ (∀ id, k' id ≤ k id + es.length) ∧
      ∀ es2 more2, Expected loaded k' es2 more2 → Expected loaded k (es ++ es2) (more ++ more2) := by
  induction h with
  | nil => intro k hs _ _; exact ⟨rfl, [], k, by simp, hs, fun _ => by simp, fun _ _ h => h⟩
  | ignored hi _ ih =>
    intro k hs hm hk
    obtain ⟨h1, more, k', h2, h9, h10, h3⟩ := ih k hs (fun e he => hm e (List.mem_cons_of_mem _ he)) (fun id => by have := hk id; simp at this; omega)
    exact ⟨h1, more, k', h2, h9, fun id => by have := h10 id; simp; omega, fun es2 more2 h => .ignored hi (h3 _ _ h)⟩
  | malformed hm' => intro k _ hm _; exact absurd hm' (hm _ (List.mem_cons_self ..))
  | @done e es v v1 v' x type cfg hn ha hr ih =>
    intro k hs hm hk
    cases ha with
    | @started m m' n name i h1 h2 =>
      have hl : loaded type := by
        rw [hs.known]
        cases hf : m.templates.find type with
        | none => simp [Plugin.instantiateTemplate, hf] at h1
        | some p => exact ⟨p.1, p.2, rfl⟩
      have hk0 := hk type
      simp only [List.length_cons] at hk0
      obtain ⟨i', m1, h3, h4, h5⟩ := hs.instantiate (early := early) hl (by omega)
      simp only at h3
      rw [h3] at h1
      cases h1
      obtain ⟨h6, more, k', h7, h9, h10, h8⟩ := ih _ h5 (fun e he => hm e (List.mem_cons_of_mem _ he)) (fun id => by
        have := hk id; simp only [List.length_cons] at this; split <;> omega)
      refine ⟨h6, _ :: _ :: more, k', ?_, h9, fun id => ?_, fun es2 more2 h => .known hn hl (h8 _ _ h)⟩
      · rw [h7]; simp
      · have := h10 id
        simp only [List.length_cons]
        split at this <;> omega
  | @skipped e es v v1 v' x type cfg hn ha hr ih =>
    intro k hs hm hk
    have hk0 := hk type
    simp only [List.length_cons] at hk0
    have hno : ∀ {m m' : Plugin.Manager} {r}, Serving loaded m k → (r = Out.ok none m' ∨ r = .throw .operationFailed m' ∨
        ∃ name i, r = .ok (some (name, i)) m' ∧ i.initExn = some .operationFailed) →
        Plugin.instantiateTemplate early type none m = r → ¬ loaded type := by
      intro m m' r hs hr h1 hl
      obtain ⟨i', m1, h3, h4, h5⟩ := hs.instantiate (early := early) hl (by omega)
      rw [h3] at h1
      rcases hr with rfl | rfl | ⟨_, _, rfl, hi⟩
      · cases h1
      · cases h1
      · cases h1; rw [h4] at hi; cases hi
    cases ha with
    | @unknown m n h1 =>
      have hl : ¬ loaded type := by rw [hs.known]; simp [h1]
      obtain ⟨h6, more, k', h7, h9, h10, h8⟩ := ih k hs (fun e he => hm e (List.mem_cons_of_mem _ he)) (fun id => by
        have := hk id; simp only [List.length_cons] at this; omega)
      refine ⟨h6, _ :: more, k', ?_, h9, fun id => ?_, fun es2 more2 h => .unknown hn hl (h8 _ _ h)⟩
      · rw [h7]; simp
      · have := h10 id
        simp only [List.length_cons]
        omega
    | @null m m' n h1 h2 =>
      refine absurd ?_ (hno hs (.inl rfl) h2)
      rw [hs.known]
      cases hf : m.templates.find type with
      | none => exact absurd hf h1
      | some p => exact ⟨p.1, p.2, rfl⟩
    | @fails m m' n e h1 =>
      exfalso
      refine hno hs (.inr (.inl rfl)) h1 ?_
      rw [hs.known]
      cases hf : m.templates.find type with
      | none => simp [Plugin.instantiateTemplate, hf] at h1
      | some p => exact ⟨p.1, p.2, rfl⟩
    | @notInitialized m m' n name i e h1 h2 =>
      exfalso
      refine hno hs (.inr (.inr ⟨_, _, rfl, h2⟩)) h1 ?_
      rw [hs.known]
      cases hf : m.templates.find type with
      | none => simp [Plugin.instantiateTemplate, hf] at h1
      | some p => exact ⟨p.1, p.2, rfl⟩
  | @thrown e es v v1 x type cfg hn ha hx =>
    intro k hs hm hk
    exfalso
    have hk0 := hk type
    simp only [List.length_cons] at hk0
    have hl : ∀ {m : Plugin.Manager}, Serving loaded m k → Plugin.instantiateTemplate early type none m ≠ .ok none m → loaded type := by
      intro m hs hne
      rw [hs.known]
      cases hf : m.templates.find type with
      | none => exact absurd (by simp [Plugin.instantiateTemplate, hf]) hne
      | some p => exact ⟨p.1, p.2, rfl⟩
    cases ha with
    | unknown => exact hx rfl
    | null => exact hx rfl
    | @fails m m' n e h1 =>
      obtain ⟨i', m1, h3, h4, h5⟩ := hs.instantiate (early := early) (hl hs (by rw [h1]; intro h; cases h)) (by omega)
      simp only at h3; rw [h3] at h1; cases h1
    | @notInitialized m m' n name i e h1 h2 =>
      obtain ⟨i', m1, h3, h4, h5⟩ := hs.instantiate (early := early) (hl hs (by rw [h1]; intro h; cases h)) (by omega)
      simp only at h3; rw [h3] at h1; cases h1; rw [h4] at h2; cases h2
  | @undefined e es v v1 type cfg hn ha =>
    intro k hs hm hk
    exfalso
    have hk0 := hk type
    simp only [List.length_cons] at hk0
    cases ha with
    | @undefined m n h1 =>
      have hl : loaded type := by
        rw [hs.known]
        cases hf : m.templates.find type with
        | none => simp [Plugin.instantiateTemplate, hf] at h1
        | some p => exact ⟨p.1, p.2, rfl⟩
      obtain ⟨i', m1, h3, h4, h5⟩ := hs.instantiate (early := early) hl (by omega)
      simp only at h3; rw [h3] at h1; cases h1

theorem runs_expected {early : Bool} {loaded : Str → Prop} {es : List Tree} {v v' : View} {x : Ending} (h : Runs early es v x v')
    (k : Str → Nat) (hs : Serving loaded v.1 k) (hm : ∀ e ∈ es, ¬ Malformed e)
    (hk : ∀ id, k id + es.length ≤ Plugin.intValues) :
    x = .returns ∧ ∃ more, v'.2 = v.2 ++ more ∧ Expected loaded k es more := by
  obtain ⟨h1, more, k', h2, _, _, h3⟩ := runs_serving h k hs hm hk
  exact ⟨h1, more, h2, by simpa using h3 [] [] .nil⟩

theorem Ready.serving {m : Plugin.Manager} (h : Ready m) :
    Serving (fun id => m.templates.find id ≠ none) m (fun _ => 0) := by
  refine ⟨h.bus, h.attached, ?_, ?_, h.works, ?_, ?_⟩
  · intro id
    cases hf : m.templates.find id with
    | none => simp
    | some p => simp only [ne_eq, reduceCtorEq, not_false_eq_true, true_iff]; exact ⟨p.1, p.2, rfl⟩
  · intro id hd t hf
    obtain ⟨h1, h2⟩ := h.unused id hd t hf
    refine ⟨h1, fun j => ?_⟩
    simp [Plugin.Template.indexedInstanceExists, h2, Dict.has, Dict.find]
  · intro id hl
    cases hf : m.templates.find id with
    | none => exact absurd hf hl
    | some p => exact h.named id p.1 p.2 hf
  · intro id j _ _
    rw [h.empty]; rfl

/-- With freshly loaded, working templates and a list of plugin entries none of which has a non-string type, reading
the file returns, and what was done is exactly what the entries ask for. -/
theorem C63_plugins_instantiated {tok : Str → Option Json} {early : Bool} {text : Str} {st : St} {v : View}
    {ds : List (Str × Tree)} {es : List Tree} (hst : Reached st) (hv : Shows st v) (ht : Parsed tok text (.dict ds))
    (hp : Dict.find (bs "plugins") ds = some (.list es)) (hlen : es.length < 2 ^ 31) (hr : Ready st.mgr)
    (hm : ∀ e ∈ es, ¬ Malformed e) :
    ∃ st' m' more, readConfigurationFile tok early text st = .ok () st' ∧ Shows st' (m', v.2 ++ more) ∧
      Expected (fun id => st.mgr.templates.find id ≠ none) (fun _ => 0) es more := by
  obtain ⟨x, v', h1, h2⟩ := C63_file_processed (early := early) hst hv ht
  have hs := hr.serving
  rw [hv.1] at hs
  cases h1 with
  | noPlugins h => rw [h ds rfl] at hp; cases hp
  | scalar h h' h'' =>
    cases h; rw [h'] at hp; cases hp
    rcases h'' with h'' | ⟨_, h''⟩ <;> cases h''
  | dictionary h h' h'' => cases h; rw [h'] at hp; cases hp
  | emptyDictionary h h' h'' => cases h; rw [h'] at hp; cases hp
  | list h h' h'' =>
    cases h; rw [h'] at hp; cases hp
    rw [intCount_small hlen, List.take_length] at h''
    obtain ⟨h3, more, h4, h5⟩ := runs_expected h'' _ hs hm (fun _ => by
      show 0 + es.length ≤ 2147483648
      omega)
    subst h3
    obtain ⟨st', h6, h7⟩ := h2
    refine ⟨st', v'.1, more, h6, ?_, by rw [hv.1]; exact h5⟩
    rw [← h4]; exact h7

/-- A malformed entry ends the processing with an exception; later entries are not processed, earlier ones were. -/
theorem C63_malformed_entry {early : Bool} {e : Tree} {es : List Tree} {v v' : View} {x : Ending} (he : Malformed e)
    (h : Runs early (e :: es) v x v') : x = .throws .invalidOperation ∧ v' = v := by
  obtain ⟨ds, u, rfl, hf, hu⟩ := he
  have hno : ∀ type cfg, ¬ Names (.dict ds) type cfg := by
    rintro type cfg ⟨ds', hds, hf', _⟩
    cases hds; rw [hf] at hf'; cases hf'; exact hu _ rfl
  cases h with
  | ignored hi => rw [hi ds rfl] at hf; cases hf
  | malformed => exact ⟨rfl, rfl⟩
  | done hn => exact absurd hn (hno _ _)
  | skipped hn => exact absurd hn (hno _ _)
  | thrown hn => exact absurd hn (hno _ _)
  | undefined hn => exact absurd hn (hno _ _)

/-! ### The hypotheses are met -/

theorem find_one {V : Type} (k : Str) (v : V) : Dict.find k [(k, v)] = some v := by simp [Dict.find]

theorem means_object_one {k : Str} {j : Json} {t : Tree} (hk : (0 : UInt8) ∉ k) (h : JsonMeans j t) :
    JsonMeans (.object [(k, j)]) (.dict [(k, t)]) := by
  refine .object (ns := [(k, t)]) (by simp) rfl ?_ ?_ (by simp) ?_
  · intro i m n h1 h2
    cases i with
    | zero => cases h1; cases h2; exact .inl ⟨hk, rfl⟩
    | succ i => cases h1
  · intro i m n h1 h2
    cases i with
    | zero => cases h1; cases h2; exact h
    | succ i => cases h1
  · intro kt
    constructor
    · intro h; simp only [List.mem_singleton] at h; subst h; exact ⟨[], [], rfl, by simp⟩
    · rintro ⟨l1, l2, h, _⟩
      rw [h]; simp

theorem means_array {js : List Json} {ts : List Tree} (hne : js ≠ []) (hl : js.length = ts.length)
    (h : ∀ (i : Nat) j t, js[i]? = some j → ts[i]? = some t → JsonMeans j t) : JsonMeans (.array js) (.list ts) := .array hne hl h

/-- A configuration naming one loaded and one unknown plugin, and an entry without a type. -/
def someConfig : Json := .object [(bs "plugins", .array [.object [(bs "type", .string (bs "Link"))],
  .object [(bs "type", .string (bs "Nope"))], .int 3])]

theorem someConfig_means : JsonMeans someConfig (.dict [(bs "plugins", .list [.dict [(bs "type", .value (.str (bs "Link")))],
    .dict [(bs "type", .value (.str (bs "Nope")))], .value (.int 3)])]) := by
  refine means_object_one (by decide) (means_array (by simp) rfl ?_)
  intro i j t h1 h2
  match i with
  | 0 => cases h1; cases h2; exact means_object_one (by decide) (.string (.inl ⟨by decide, rfl⟩))
  | 1 => cases h1; cases h2; exact means_object_one (by decide) (.string (.inl ⟨by decide, rfl⟩))
  | 2 => cases h1; cases h2; exact .int (by decide)
  | i + 3 => cases h1

/-- A manager with one template. -/
def someManager : Plugin.Manager := ⟨[], some 0, [(bs "Link", (7, ⟨bs "Link", some Plugin.goodMaker, []⟩))], Plugin.freshWorld, []⟩

theorem someManager_ready : Ready someManager := by
  have key : ∀ id h t, someManager.templates.find id = some (h, t) → id = bs "Link" ∧ t = ⟨bs "Link", some Plugin.goodMaker, []⟩ := by
    intro id h t hf
    have := Dict.find_some_mem hf
    simp only [someManager, List.mem_singleton, Prod.mk.injEq] at this
    exact ⟨this.1, this.2.2⟩
  refine ⟨rfl, by decide +kernel, by decide +kernel, ?_, ?_, ?_⟩
  · intro id h t hf; obtain ⟨rfl, rfl⟩ := key id h t hf; exact ⟨rfl, rfl⟩
  · intro id h t hf; obtain ⟨rfl, rfl⟩ := key id h t hf; exact ⟨_, rfl, fun n => ⟨_, rfl, rfl⟩⟩
  · intro id h t hf c hc
    obtain ⟨rfl, rfl⟩ := key id h t hf
    have : c = 107 := by
      have h : (bs "Link").getLast? = some 107 := by decide
      rw [h] at hc; cases hc; rfl
    subst this
    simp [IsDigit]

example : ∃ st v ds es, Reached st ∧ Shows st v ∧ Parsed (fun _ => some someConfig) (bs "x") (.dict ds) ∧
    Dict.find (bs "plugins") ds = some (.list es) ∧ es.length < 2 ^ 31 ∧ Ready st.mgr ∧ (∀ e ∈ es, ¬ Malformed e) ∧ es.length = 3 := by
  refine ⟨create someManager, (someManager, []), _, _, .new _, ⟨rfl, rfl, by simp [create]⟩, someConfig_means, find_one _ _,
    by decide, someManager_ready, ?_, rfl⟩
  intro e he
  simp only [List.mem_cons, List.not_mem_nil, or_false] at he
  rintro ⟨ds, u, h1, h2, h3⟩
  rcases he with rfl | rfl | rfl
  · cases h1
    rw [find_one] at h2; cases h2; exact h3 _ rfl
  · cases h1
    rw [find_one] at h2; cases h2; exact h3 _ rfl
  · cases h1

/-- `"plugins": []` -/
example : ∃ st v ds u, Reached st ∧ Shows st v ∧ Parsed (fun _ => some (.object [(bs "plugins", .array [])])) (bs "x") (.dict ds) ∧
    Dict.find (bs "plugins") ds = some u ∧ (∀ es, u ≠ .list es) ∧ ∀ es, u = .dict es → es.length < 2 ^ 31 := by
  refine ⟨create someManager, (someManager, []), [(bs "plugins", .empty)], .empty, .new _, ⟨rfl, rfl, by simp [create]⟩,
    means_object_one (by decide) .emptyArray, find_one _ _, (fun es h => by cases h), (fun es h => by cases h)⟩

example : ∃ (e : Tree) (v v' : View) (x : Ending), Malformed e ∧ Runs false [e] v x v' := by
  refine ⟨.dict [(bs "type", .value (.int 1))], (someManager, []), _, _, ⟨_, .value (.int 1), rfl, find_one _ _, ?_⟩, .malformed ?_⟩
  · intro s h; cases h
  · exact ⟨_, .value (.int 1), rfl, find_one _ _, fun s h => by cases h⟩

end LP.Host
