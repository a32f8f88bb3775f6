import Verif.Lemma.Plugin
import Verif.Prop.Fs
/-!
# Loading and unloading templates (C60, C61)
-/
namespace LP.Plugin

/-! ## C60 -/

/-- The part of a path after its last '/'. -/
def AfterLastSlash (path name : Str) : Prop := ∃ dir, path = dir ++ slash :: name ∧ slash ∉ name

/-- A file that qualifies as the plugin template `id`, with what opening it gives: it exists, is named
`libplugin_*.so`, opens, has both functions, and its info names a non-empty identifier. -/
structure Qualifies (env : Env) (path : Str) (id : Str) (handle : Nat) (f : Str → Made) : Prop where
  exist : env.fs.exists_ (untilNul path) = true
  named : ∃ name, AfterLastSlash path name ∧ (∃ rest, name = bs "libplugin_" ++ rest) ∧ ∃ stem, name = stem ++ bs ".so"
  openable : ∃ lib : Lib, env.dlopen (untilNul path) = some (handle, lib) ∧ lib.createInfo = some (some id) ∧
    lib.createInstance = some f
  identified : id ≠ []

theorem candidate_iff (fs : Fs.World) (path : Str) :
    candidate fs path = true ↔ fs.exists_ (untilNul path) = true ∧
      ∃ name, AfterLastSlash path name ∧ (∃ rest, name = bs "libplugin_" ++ rest) ∧ ∃ stem, name = stem ++ bs ".so" := by
  have hdotso : ∀ s : Str, s ++ bs ".so" = s ++ dot :: bs "so" := fun s => rfl
  constructor
  · intro h
    simp only [candidate, Bool.and_eq_true, beq_iff_eq, Fs.pathExists, Fs.cstr_eq] at h
    obtain ⟨⟨h1, h2⟩, h3⟩ := h
    refine ⟨h1, Fs.getFilename path, ?_, ?_, ?_⟩
    · have hs : slash ∈ path := by
        by_cases hs : slash ∈ path
        · exact hs
        · rw [(Fs.C66_no_slash path hs).2.2] at h2
          exact absurd h2 (by decide)
      refine ⟨Fs.getBaseDirectory path, ?_, Fs.C66_filename_no_slash path⟩
      have := Fs.C66_recombine path hs
      simpa [Fs.combinePaths] using this.symm
    · refine ⟨(Fs.getFilename path).drop templateFilePrefix.length, ?_⟩
      have := (List.take_append_drop templateFilePrefix.length (Fs.getFilename path)).symm
      unfold Str.substr0 at h3
      rw [h3] at this
      exact this
    · by_cases hd : dot ∈ Fs.getFilename path
      · obtain ⟨a, e, he, hne⟩ := Fs.cut_last hd
        rw [(Fs.C67_extension path).2 a e he hne] at h2
        refine ⟨a, ?_⟩
        rw [he, hdotso, h2]; rfl
      · rw [(Fs.C67_extension path).1 hd] at h2
        exact absurd h2 (by decide)
  · rintro ⟨h1, name, ⟨dir, hp, hs⟩, ⟨rest, hr⟩, stem, hst⟩
    have hfn : Fs.getFilename path = name := by
      rw [hp]
      have := (Fs.C66_parts_of_combined dir name hs).1
      simpa [Fs.combinePaths] using this
    simp only [candidate, Bool.and_eq_true, beq_iff_eq, Fs.pathExists, Fs.cstr_eq]
    refine ⟨⟨h1, ?_⟩, ?_⟩
    · exact (Fs.C67_extension path).2 stem (bs "so") (by rw [hfn, hst, hdotso]) (by decide)
    · rw [hfn, hr]
      exact List.take_left

/-- Loading a qualifying file whose identifier is not loaded yet registers exactly this template. -/
theorem C60_qualifying_file_loaded {env : Env} {path id : Str} {handle : Nat} {f : Str → Made} (m : Manager)
    (hq : Qualifies env path id handle f) (hnew : m.templates.find id = none) :
    ∃ m', loadTemplate env path m = .ok true m' ∧ m'.templates.find id = some (handle, ⟨id, some f, []⟩) ∧
      (∀ other, other ≠ id → m'.templates.find other = m.templates.find other) ∧
      m'.world = m.world ∧ m'.log = m.log ++ [.opened handle] := by
  obtain ⟨h1, h2, ⟨lib, h3, h4, h5⟩, h6⟩ := hq
  have hc := (candidate_iff env.fs path).2 ⟨h1, h2⟩
  have hid : id.isEmpty = false := by
    cases id with
    | nil => exact absurd rfl h6
    | cons _ _ => rfl
  refine ⟨{ m with templates := m.templates.insert id (handle, ⟨id, some f, []⟩), log := m.log ++ [.opened handle] },
    ?_, by simp, fun other ho => Dict.find_insert_ne (Ne.symm ho) _ _, rfl, rfl⟩
  unfold loadTemplate useLibrary
  rw [Fs.cstr_eq]
  simp [hc, h3, h4, h5, hid, storeTemplate, hnew]

/-- What `LoadTemplate` does in all other cases (the library's `CreateInfo` not returning a null pointer, which would
be dereferenced): it returns false, changes no template, and closes the library if it opened one. -/
theorem C60_other_file_rejected {env : Env} {path : Str} (m : Manager)
    (hq : ∀ id handle f, ¬ Qualifies env path id handle f)
    (hnull : ∀ h lib, env.dlopen (untilNul path) = some (h, lib) → lib.createInfo ≠ some none) :
    ∃ m', loadTemplate env path m = .ok false m' ∧ m'.templates = m.templates ∧ m'.world = m.world ∧
      (m'.log = m.log ∨ ∃ h, m'.log = m.log ++ [.opened h, .closed h]) := by
  unfold loadTemplate useLibrary
  rw [Fs.cstr_eq]
  by_cases hc : candidate env.fs path = true
  · have hn := (candidate_iff env.fs path).1 hc
    simp only [hc, if_true]
    cases hd : env.dlopen (untilNul path) with
    | none => exact ⟨m, rfl, rfl, rfl, .inl rfl⟩
    | some r =>
      obtain ⟨h, lib⟩ := r
      simp only
      cases hi : lib.createInfo with
      | none => exact ⟨_, rfl, rfl, rfl, .inr ⟨h, by simp⟩⟩
      | some o =>
        cases o with
        | none => exact absurd hi (hnull h lib hd)
        | some id =>
          simp only
          cases id with
          | nil => exact ⟨_, rfl, rfl, rfl, .inr ⟨h, by simp⟩⟩
          | cons a id =>
            cases hf : lib.createInstance with
            | none => exact ⟨_, rfl, rfl, rfl, .inr ⟨h, by simp⟩⟩
            | some f =>
              exact absurd ⟨hn.1, hn.2, ⟨lib, hd, hi, hf⟩, by simp⟩ (hq (a :: id) h f)
  · simp only [hc, if_false]
    exact ⟨m, rfl, rfl, rfl, .inl rfl⟩

/-- The result of `LoadTemplate` tells whether the file qualifies. -/
theorem C60_loaded_iff {env : Env} {path : Str} {m m' : Manager} {r : Bool} (h : loadTemplate env path m = .ok r m') :
    r = true ↔ ∃ id handle f, Qualifies env path id handle f := by
  unfold loadTemplate useLibrary at h
  rw [Fs.cstr_eq] at h
  by_cases hc : candidate env.fs path = true
  · have hn := (candidate_iff env.fs path).1 hc
    simp only [hc, if_true] at h
    cases hd : env.dlopen (untilNul path) with
    | none =>
      simp [hd] at h
      rw [h.1]
      refine ⟨(fun e => by cases e), ?_⟩
      rintro ⟨id, hh, f, hq⟩
      obtain ⟨lib, h3, _⟩ := hq.openable
      rw [hd] at h3; cases h3
    | some x =>
      obtain ⟨hh, lib⟩ := x
      simp only [hd] at h
      have hno : (lib.createInfo = none ∨ (∃ id, lib.createInfo = some (some id) ∧ (id = [] ∨ lib.createInstance = none))) →
          ¬ ∃ id handle f, Qualifies env path id handle f := by
        rintro hl ⟨id, h', f, hq⟩
        obtain ⟨lib', h3, h4, h5⟩ := hq.openable
        rw [hd] at h3
        cases h3
        rcases hl with hl | ⟨id', hl, hl'⟩
        · rw [h4] at hl; cases hl
        · rw [h4] at hl
          cases hl
          rcases hl' with hl' | hl'
          · exact hq.identified hl'
          · rw [h5] at hl'; cases hl'
      cases hi : lib.createInfo with
      | none =>
        simp only [hi] at h
        cases h
        exact ⟨(fun e => by cases e), fun e => absurd e (hno (.inl hi))⟩
      | some o =>
        cases o with
        | none => simp [hi] at h
        | some id =>
          simp only [hi] at h
          by_cases hid : id = []
          · subst hid
            simp at h
            rw [h.1]
            exact ⟨(fun e => by cases e), fun e => absurd e (hno (.inr ⟨_, hi, .inl rfl⟩))⟩
          · have hid' : id.isEmpty = false := by
              cases id with
              | nil => exact absurd rfl hid
              | cons _ _ => rfl
            simp only [hid'] at h
            cases hf : lib.createInstance with
            | none =>
              simp [hf] at h
              rw [h.1]
              exact ⟨(fun e => by cases e), fun e => absurd e (hno (.inr ⟨_, hi, .inr hf⟩))⟩
            | some f =>
              simp only [hf] at h
              have hr : r = true := by
                unfold storeTemplate at h
                simp at h
                split at h
                · cases h; rfl
                · split at h
                  · cases h; rfl
                  · cases h
                  · cases h
                  · cases h
              exact ⟨fun _ => ⟨id, hh, f, hn.1, hn.2, ⟨lib, hd, hi, hf⟩, hid⟩, fun _ => hr⟩
  · simp [hc] at h
    rw [h.1]
    refine ⟨(fun e => by cases e), ?_⟩
    rintro ⟨id, hh, f, hq⟩
    exact absurd ((candidate_iff env.fs path).2 ⟨hq.exist, hq.named⟩) hc

/-! ### The hypotheses are met -/

/-- A file system where every path exists; directories have no entries. -/
def anyFs : Fs.World := ⟨fun _ => some .file, fun _ => true, fun _ => none, some (bs "/bin/lamppost"), some (bs "/")⟩

/-- Three libraries: a good one with handle 1, one without an identifier with handle 2, another good one with the same
identifier as the first with handle 3; anything else does not open. -/
def someEnv : Env where
  fs := anyFs
  dlopen := fun p =>
    if p = bs "/p/libplugin_a.so" then some (1, ⟨some (some (bs "A")), some (fun _ => .object ⟨none, none⟩)⟩)
    else if p = bs "/p/libplugin_b.so" then some (2, ⟨some (some []), some (fun _ => .null)⟩)
    else if p = bs "/p/libplugin_c.so" then some (3, ⟨some (some (bs "A")), some (fun _ => .object ⟨none, none⟩)⟩)
    else none

theorem someEnv_a : Qualifies someEnv (bs "/p/libplugin_a.so") (bs "A") 1 (fun _ => .object ⟨none, none⟩) :=
  ⟨rfl, ⟨bs "libplugin_a.so", ⟨bs "/p", rfl, by decide⟩, ⟨bs "a.so", rfl⟩, bs "libplugin_a", rfl⟩, ⟨_, rfl, rfl, rfl⟩, by decide⟩

theorem someEnv_c : Qualifies someEnv (bs "/p/libplugin_c.so") (bs "A") 3 (fun _ => .object ⟨none, none⟩) :=
  ⟨rfl, ⟨bs "libplugin_c.so", ⟨bs "/p", rfl, by decide⟩, ⟨bs "c.so", rfl⟩, bs "libplugin_c", rfl⟩,
    ⟨⟨some (some (bs "A")), some (fun _ => .object ⟨none, none⟩)⟩, by
      have h0 : untilNul (bs "/p/libplugin_c.so") = bs "/p/libplugin_c.so" := by decide
      have h1 : bs "/p/libplugin_c.so" ≠ bs "/p/libplugin_a.so" := by decide
      have h2 : bs "/p/libplugin_c.so" ≠ bs "/p/libplugin_b.so" := by decide
      simp [someEnv, h0, h1, h2], rfl, rfl⟩, by decide⟩

example : (∀ id handle f, ¬ Qualifies someEnv (bs "/p/libplugin_b.so") id handle f) ∧
    ∀ h lib, someEnv.dlopen (untilNul (bs "/p/libplugin_b.so")) = some (h, lib) → lib.createInfo ≠ some none := by
  have hb : someEnv.dlopen (untilNul (bs "/p/libplugin_b.so")) = some (2, ⟨some (some []), some (fun _ => .null)⟩) := by
    have h0 : untilNul (bs "/p/libplugin_b.so") = bs "/p/libplugin_b.so" := by decide
    have h1 : bs "/p/libplugin_b.so" ≠ bs "/p/libplugin_a.so" := by decide
    simp [someEnv, h0, h1]
  constructor
  · intro id handle f hq
    obtain ⟨lib, h3, h4, _⟩ := hq.openable
    rw [hb] at h3
    cases h3
    cases h4
    exact hq.identified rfl
  · intro h lib hd
    rw [hb] at hd
    cases hd
    simp

/-! ## C61 -/

/-- A use of the manager between construction and unloading. -/
inductive Op where
  | load (path : Str)
  | instantiate (early : Bool) (id : Str) (bus : Option Nat)
  | setBus (bus : Option Nat)

/-- One use; exceptions are caught by the caller. `none`: undefined behaviour or termination. -/
def perform (env : Env) : Op → Manager → Option Manager
  | .load path, m => match loadTemplate env path m with
    | .ok _ m' => some m'
    | .throw _ m' => some m'
    | _ => none
  | .instantiate early id bus, m => match instantiateTemplate early id bus m with
    | .ok _ m' => some m'
    | .throw _ m' => some m'
    | _ => none
  | .setBus bus, m => some (setBus bus m)

/-- Several uses in order. -/
def performAll (env : Env) : List Op → Manager → Option Manager
  | [], m => some m
  | op :: ops, m => (perform env op m).bind (performAll env ops)

/-- The paths given to `LoadTemplate`. -/
def loadPaths : List Op → List Str
  | [] => []
  | .load path :: ops => path :: loadPaths ops
  | _ :: ops => loadPaths ops

/-- No two of the files qualify with the same identifier. -/
def DistinctIds (env : Env) (paths : List Str) : Prop :=
  paths.Pairwise (fun p q => ∀ id h f id' h' f', Qualifies env p id h f → Qualifies env q id' h' f' → id ≠ id')

/-- A manager without templates. -/
def emptyManager (paths : List Str) (bus : Option Nat) (w : Bus.World) : Manager := ⟨paths, bus, [], w, []⟩

/-- Number of templates holding a library handle. -/
def holds (h : Nat) (d : Dict (Nat × Template)) : Nat := d.countP (fun e => e.2.1 == h)

theorem countP_insert_none {V : Type} (p : Str × V → Bool) {k : Str} {v : V} {d : Dict V} (h : d.find k = none) :
    (d.insert k v).countP p = d.countP p + (if p (k, v) then 1 else 0) := by
  induction d with
  | nil => simp [Dict.insert, List.countP_cons]
  | cons x d ih =>
    obtain ⟨k', v'⟩ := x
    rw [Dict.find] at h
    split at h
    · cases h
    · rename_i hk
      rw [Dict.insert]
      rw [if_neg (fun e => hk e.symm)]
      split
      · simp [List.countP_cons]
      · simp [List.countP_cons, ih h]; omega

theorem countP_insert_some {V : Type} (p : Str × V → Bool) {k : Str} {v v0 : V} {d : Dict V} (hs : d.Sorted)
    (h : d.find k = some v0) :
    (d.insert k v).countP p + (if p (k, v0) then 1 else 0) = d.countP p + (if p (k, v) then 1 else 0) := by
  induction d with
  | nil => cases h
  | cons x d ih =>
    obtain ⟨k', v'⟩ := x
    rw [Dict.find] at h
    split at h
    · rename_i hk
      subst hk
      cases h
      simp [Dict.insert, List.countP_cons]; omega
    · rename_i hk
      rw [Dict.insert]
      rw [if_neg (fun e => hk e.symm)]
      obtain ⟨hs1, hs2⟩ := List.pairwise_cons.1 hs
      have hlt : Str.lt k' k = true := hs1 _ (Dict.find_some_mem h)
      rw [if_neg (by rw [Str.lt_asymm hlt]; simp)]
      have := ih hs2 h
      simp [List.countP_cons] at this ⊢; omega

/-- Events that open or close nothing. -/
def Neutral (l : List Ev) : Prop := ∀ e ∈ l, (∃ n, e = .stopped n) ∨ (∃ n, e = .deinitialized n) ∨ ∃ n, e = .created n

theorem Neutral.count {l : List Ev} (h : Neutral l) (x : Nat) : l.count (.opened x) = 0 ∧ l.count (.closed x) = 0 := by
  constructor <;>
  · rw [List.count_eq_zero]
    intro hm
    rcases h _ hm with ⟨n, e⟩ | ⟨n, e⟩ | ⟨n, e⟩ <;> cases e

theorem Neutral.append {a b : List Ev} (ha : Neutral a) (hb : Neutral b) : Neutral (a ++ b) := by
  intro e he
  rcases List.mem_append.1 he with he | he
  · exact ha e he
  · exact hb e he

theorem stopAll_neutral : ∀ {d : Dict (Option Inst)} {log log' : List Ev}, stopAll d log = some log' →
    ∃ l, log' = log ++ l ∧ Neutral l := by
  intro d
  induction d with
  | nil => intro log log' h; cases h; exact ⟨[], by simp, by simp [Neutral]⟩
  | cons x d ih =>
    intro log log' h
    obtain ⟨n, v⟩ := x
    cases v with
    | none => cases h
    | some i =>
      rw [stopAll] at h
      obtain ⟨l, hl, hn⟩ := ih h
      exact ⟨.stopped n :: l, by simp [hl], Neutral.append (a := [.stopped n]) (by simp [Neutral]) hn⟩

theorem deinitAll_neutral : ∀ {d : Dict (Option Inst)} {log log' : List Ev} {x : Option Exn},
    deinitAll d log = some (log', x) → ∃ l, log' = log ++ l ∧ Neutral l := by
  intro d
  induction d with
  | nil => intro log log' x h; cases h; exact ⟨[], by simp, by simp [Neutral]⟩
  | cons y d ih =>
    intro log log' x h
    obtain ⟨n, v⟩ := y
    cases v with
    | none => cases h
    | some i =>
      rw [deinitAll] at h
      split at h
      · cases h; exact ⟨[.deinitialized n], rfl, by simp [Neutral]⟩
      · obtain ⟨l, hl, hn⟩ := ih h
        exact ⟨.deinitialized n :: l, by simp [hl], Neutral.append (a := [.deinitialized n]) (by simp [Neutral]) hn⟩

theorem unload_neutral {t t' : Template} {log log' : List Ev} (h : unload t log = .ok () (t', log')) :
    ∃ l, log' = log ++ l ∧ Neutral l := by
  unfold unload at h
  simp only at h
  split at h
  · cases h
  · rename_i log1 h1
    split at h
    · cases h
    · cases h
    · rename_i log2 h2
      cases h
      obtain ⟨l1, rfl, n1⟩ := stopAll_neutral h1
      obtain ⟨l2, rfl, n2⟩ := deinitAll_neutral h2
      exact ⟨l1 ++ l2, by simp, n1.append n2⟩

theorem destroyTemplate_neutral {t : Template} {log log' : List Ev} (h : destroyTemplate t log = .ok () log') :
    ∃ l, log' = log ++ l ∧ Neutral l := by
  unfold destroyTemplate at h
  split at h
  · rename_i t1 log1 hu
    cases h
    exact unload_neutral hu
  · cases h
  · cases h
  · cases h

theorem destroyAll_neutral : ∀ {d : Dict (Nat × Template)} {log log' : List Ev}, destroyAll d log = .ok () log' →
    ∃ l, log' = log ++ l ∧ Neutral l := by
  intro d
  induction d with
  | nil => intro log log' h; cases h; exact ⟨[], by simp, by simp [Neutral]⟩
  | cons x d ih =>
    intro log log' h
    obtain ⟨id, hh, t⟩ := x
    rw [destroyAll] at h
    split at h
    · rename_i log1 hd
      obtain ⟨l1, rfl, n1⟩ := destroyTemplate_neutral hd
      obtain ⟨l2, rfl, n2⟩ := ih h
      exact ⟨l1 ++ l2, by simp, n1.append n2⟩
    · cases h
    · cases h
    · cases h

/-- `Instantiate` neither opens nor closes a library. -/
theorem instantiate_neutral {early : Bool} {p : Option Nat} {s s' : TS}
    (h : (∃ r, instantiate early p s = .ok r s') ∨ ∃ e, instantiate early p s = .throw e s') :
    ∃ l, s'.log = s.log ++ l ∧ Neutral l := by
  rcases h with ⟨r, h⟩ | ⟨e, h⟩
  · unfold instantiate at h
    split at h
    · cases h
    · dsimp only at h
      split at h
      · cases h
      · split at h
        · cases h
        · cases h
        · cases h
        · split at h
          · cases h
          · split at h
            · cases h
            · cases h; exact ⟨[], by simp, by simp [Neutral]⟩
            · cases h; exact ⟨_, rfl, by simp [Neutral]⟩
  · unfold instantiate at h
    split at h
    · cases h
    · dsimp only at h
      split at h
      · cases h
      · split at h
        · cases h; exact ⟨[], by simp, by simp [Neutral]⟩
        · cases h
        · cases h
        · split at h
          · cases h
            exact ⟨[], by split <;> simp, by simp [Neutral]⟩
          · split at h
            · cases h
              exact ⟨[], by split <;> simp, by simp [Neutral]⟩
            · cases h
            · cases h

/-- What one `LoadTemplate` does to the templates and to the library events. -/
theorem loadTemplate_effect {env : Env} {path : Str} {m m' : Manager} {r : Bool} (h : loadTemplate env path m = .ok r m') :
    (m'.templates = m.templates ∧ (m'.log = m.log ∨ ∃ x, m'.log = m.log ++ [.opened x, .closed x])) ∨
    ∃ id x f l, Qualifies env path id x f ∧ m'.templates = m.templates.insert id (x, ⟨id, some f, []⟩) ∧
      m'.log = m.log ++ .opened x :: l ∧ Neutral l := by
  unfold loadTemplate useLibrary at h
  rw [Fs.cstr_eq] at h
  by_cases hc : candidate env.fs path = true
  · have hn := (candidate_iff env.fs path).1 hc
    simp only [hc, if_true] at h
    cases hd : env.dlopen (untilNul path) with
    | none => simp [hd] at h; rw [h.2]; exact .inl ⟨rfl, .inl rfl⟩
    | some x =>
      obtain ⟨hh, lib⟩ := x
      simp only [hd] at h
      cases hi : lib.createInfo with
      | none => simp [hi] at h; rw [← h.2]; exact .inl ⟨rfl, .inr ⟨hh, rfl⟩⟩
      | some o =>
        cases o with
        | none => simp [hi] at h
        | some id =>
          simp only [hi] at h
          cases id with
          | nil => simp at h; rw [← h.2]; exact .inl ⟨rfl, .inr ⟨hh, rfl⟩⟩
          | cons a id =>
            cases hf : lib.createInstance with
            | none => simp [hf] at h; rw [← h.2]; exact .inl ⟨rfl, .inr ⟨hh, rfl⟩⟩
            | some f =>
              simp only [hf] at h
              have hq : Qualifies env path (a :: id) hh f := ⟨hn.1, hn.2, ⟨lib, hd, hi, hf⟩, by simp⟩
              right
              unfold storeTemplate at h
              simp at h
              split at h
              · cases h; exact ⟨a :: id, hh, f, [], hq, rfl, rfl, by simp [Neutral]⟩
              · split at h
                · rename_i u log1 hdt
                  cases h
                  obtain ⟨l, hl, hln⟩ := destroyTemplate_neutral hdt
                  exact ⟨a :: id, hh, f, l, hq, rfl, by rw [hl]; simp, hln⟩
                · cases h
                · cases h
                · cases h
  · simp [hc] at h; rw [h.2]; exact .inl ⟨rfl, .inl rfl⟩

theorem loadTemplate_no_throw {env : Env} {path : Str} {m m' : Manager} {e : Exn} : loadTemplate env path m ≠ .throw e m' := by
  intro h
  unfold loadTemplate useLibrary at h
  rw [Fs.cstr_eq] at h
  split at h
  · split at h
    · cases h
    · dsimp only at h
      split at h
      · cases h
      · cases h
      · split at h
        · cases h
        · split at h
          · cases h
          · unfold storeTemplate at h
            split at h
            · cases h
            · split at h <;> cases h
  · cases h

/-- What `InstantiateTemplate` does to the templates and to the library events. -/
theorem instantiateTemplate_effect {early : Bool} {id : Str} {bus : Option Nat} {m m' : Manager}
    (h : (∃ r, instantiateTemplate early id bus m = .ok r m') ∨ ∃ e, instantiateTemplate early id bus m = .throw e m') :
    ∃ l, m'.log = m.log ++ l ∧ Neutral l ∧ (m'.templates = m.templates ∨
      ∃ x t t', m.templates.find id = some (x, t) ∧ m'.templates = m.templates.insert id (x, t')) := by
  unfold instantiateTemplate at h
  cases hf : m.templates.find id with
  | none =>
    simp only [hf] at h
    rcases h with ⟨r, h⟩ | ⟨e, h⟩
    · cases h; exact ⟨[], by simp, by simp [Neutral], .inl rfl⟩
    · cases h
  | some y =>
    obtain ⟨x, t⟩ := y
    simp only [hf] at h
    rcases h with ⟨r, h⟩ | ⟨e, h⟩
    · split at h
      · rename_i name i s hi
        cases h
        obtain ⟨l, hl, hn⟩ := instantiate_neutral (.inl ⟨_, hi⟩)
        exact ⟨l, hl, hn, .inr ⟨x, t, s.tmpl, rfl, rfl⟩⟩
      · cases h
      · cases h
      · cases h
    · split at h
      · cases h
      · rename_i e' s hi
        cases h
        obtain ⟨l, hl, hn⟩ := instantiate_neutral (.inr ⟨_, hi⟩)
        exact ⟨l, hl, hn, .inr ⟨x, t, s.tmpl, rfl, rfl⟩⟩
      · cases h
      · cases h

/-- One use of the manager: the templates stay in order; per handle, opens minus closes minus templates holding it does not
decrease, and does not change unless a loaded identifier is loaded again; identifiers come from qualifying files. -/
theorem perform_effect {env : Env} {op : Op} {m m' : Manager} (h : perform env op m = some m') (hs : m.templates.Sorted) :
    m'.templates.Sorted ∧
    (∀ x, m.log.count (.opened x) + m'.log.count (.closed x) + holds x m'.templates ≤
      m'.log.count (.opened x) + m.log.count (.closed x) + holds x m.templates) ∧
    (∀ id, m'.templates.find id ≠ none → m.templates.find id ≠ none ∨
      ∃ path x f, op = .load path ∧ Qualifies env path id x f) ∧
    ((∀ path id x f, op = .load path → Qualifies env path id x f → m.templates.find id = none) → ∀ x,
      m.log.count (.opened x) + m'.log.count (.closed x) + holds x m'.templates =
      m'.log.count (.opened x) + m.log.count (.closed x) + holds x m.templates) := by
  cases op with
  | load path =>
    rw [perform] at h
    split at h
    · rename_i r m1 hl
      cases h
      rcases loadTemplate_effect hl with ⟨ht, hlog⟩ | ⟨id, x, f, l, hq, ht, hlog, hn⟩
      · rw [ht]
        have hcount : ∀ x, m.log.count (.opened x) + m'.log.count (.closed x) + holds x m.templates =
            m'.log.count (.opened x) + m.log.count (.closed x) + holds x m.templates := by
          intro x
          rcases hlog with hlog | ⟨y, hlog⟩
          · rw [hlog]
          · rw [hlog]
            by_cases hy : y = x
            · subst hy
              simp [List.count_append, List.count_cons]; omega
            · simp [List.count_append, List.count_cons, hy]
        exact ⟨hs, fun x => Nat.le_of_eq (hcount x), fun id hid => .inl hid, fun _ => hcount⟩
      · have hco : ∀ y, m'.log.count (.opened y) = m.log.count (.opened y) + (if x = y then 1 else 0) ∧
            m'.log.count (.closed y) = m.log.count (.closed y) := by
          intro y
          rw [hlog]
          have := hn.count y
          by_cases hy : x = y
          · subst hy; simp [List.count_append, List.count_cons, this]
          · simp [List.count_append, List.count_cons, this, hy]
        refine ⟨by rw [ht]; exact Dict.insert_sorted hs, ?_, ?_, ?_⟩
        · intro y
          rw [(hco y).1, (hco y).2, ht]
          unfold holds
          cases hf : m.templates.find id with
          | none =>
            rw [countP_insert_none _ hf]
            by_cases hy : x = y <;> simp [hy] <;> omega
          | some v =>
            have := countP_insert_some (fun e => e.2.1 == y) (v := (x, ⟨id, some f, []⟩)) hs hf
            by_cases hy : x = y <;> simp [hy] at this ⊢ <;> omega
        · intro id' hid'
          by_cases he : id' = id
          · subst he; exact .inr ⟨path, x, f, rfl, hq⟩
          · rw [ht, Dict.find_insert_ne (Ne.symm he)] at hid'; exact .inl hid'
        · intro hnew y
          rw [(hco y).1, (hco y).2, ht]
          unfold holds
          rw [countP_insert_none _ (hnew path id x f rfl hq)]
          by_cases hy : x = y <;> simp [hy] <;> omega
    · rename_i hl; exact absurd hl loadTemplate_no_throw
    · cases h
  | instantiate early id bus =>
    have hcases : (∃ r, instantiateTemplate early id bus m = .ok r m') ∨ ∃ e, instantiateTemplate early id bus m = .throw e m' := by
      rw [perform] at h
      split at h
      · rename_i r m1 hl; cases h; exact .inl ⟨r, hl⟩
      · rename_i e m1 hl; cases h; exact .inr ⟨e, hl⟩
      · cases h
    obtain ⟨l, hlog, hn, ht⟩ := instantiateTemplate_effect hcases
    have hco : ∀ y, m'.log.count (.opened y) = m.log.count (.opened y) ∧ m'.log.count (.closed y) = m.log.count (.closed y) := by
      intro y
      rw [hlog]
      have := hn.count y
      simp [List.count_append, this]
    have hh : m'.templates.Sorted ∧ (∀ x, holds x m'.templates = holds x m.templates) ∧
        ∀ id', m'.templates.find id' ≠ none → m.templates.find id' ≠ none := by
      rcases ht with ht | ⟨x, t, t', hf, ht⟩
      · rw [ht]; exact ⟨hs, fun _ => rfl, fun _ h => h⟩
      · rw [ht]
        refine ⟨Dict.insert_sorted hs, fun y => ?_, fun id' hid' => ?_⟩
        · have := countP_insert_some (fun e => e.2.1 == y) (v := (x, t')) hs hf
          unfold holds
          by_cases hy : x = y <;> simp [hy] at this ⊢ <;> omega
        · by_cases he : id' = id
          · subst he; rw [hf]; simp
          · rwa [Dict.find_insert_ne (Ne.symm he)] at hid'
    refine ⟨hh.1, fun x => ?_, fun id' hid' => .inl (hh.2.2 id' hid'), fun _ x => ?_⟩
    · rw [(hco x).1, (hco x).2, hh.2.1 x]; omega
    · rw [(hco x).1, (hco x).2, hh.2.1 x]
  | setBus b =>
    cases h
    exact ⟨hs, fun x => Nat.le_refl _, fun id hid => .inl hid, fun _ x => by simp only [setBus]⟩

/-- Uses of the manager never lose the surplus of opens over closes and held handles. -/
theorem performAll_le {env : Env} {ops : List Op} {m m' : Manager} (h : performAll env ops m = some m')
    (hs : m.templates.Sorted) :
    m'.templates.Sorted ∧ ∀ x, m.log.count (.opened x) + m'.log.count (.closed x) + holds x m'.templates ≤
      m'.log.count (.opened x) + m.log.count (.closed x) + holds x m.templates := by
  induction ops generalizing m with
  | nil => cases h; exact ⟨hs, fun x => by omega⟩
  | cons op ops ih =>
    rw [performAll, Option.bind_eq_some_iff] at h
    obtain ⟨m1, h1, h2⟩ := h
    obtain ⟨p1, p2, _, _⟩ := perform_effect h1 hs
    obtain ⟨q1, q2⟩ := ih h2 p1
    exact ⟨q1, fun x => by have := p2 x; have := q2 x; omega⟩

theorem performAll_eq {env : Env} {ops : List Op} {m m' : Manager} (h : performAll env ops m = some m')
    (hs : m.templates.Sorted) (hd : DistinctIds env (loadPaths ops))
    (hnew : ∀ path ∈ loadPaths ops, ∀ id x f, Qualifies env path id x f → m.templates.find id = none) :
    ∀ x, m.log.count (.opened x) + m'.log.count (.closed x) + holds x m'.templates =
      m'.log.count (.opened x) + m.log.count (.closed x) + holds x m.templates := by
  induction ops generalizing m with
  | nil => cases h; exact fun x => by omega
  | cons op ops ih =>
    rw [performAll, Option.bind_eq_some_iff] at h
    obtain ⟨m1, h1, h2⟩ := h
    obtain ⟨p1, _, p3, p4⟩ := perform_effect h1 hs
    have hsub : ∀ path ∈ loadPaths ops, path ∈ loadPaths (op :: ops) := by
      intro path hp
      cases op with
      | load p => exact List.mem_cons_of_mem _ hp
      | instantiate _ _ _ => exact hp
      | setBus _ => exact hp
    have hd1 : DistinctIds env (loadPaths ops) := by
      cases op with
      | load p => exact (List.pairwise_cons.1 hd).2
      | instantiate _ _ _ => exact hd
      | setBus _ => exact hd
    have hnew1 : ∀ path ∈ loadPaths ops, ∀ id x f, Qualifies env path id x f → m1.templates.find id = none := by
      intro path hp id x f hq
      cases hc : m1.templates.find id with
      | none => rfl
      | some v =>
        exfalso
        rcases p3 id (by rw [hc]; simp) with hm | ⟨p, x', f', rfl, hq'⟩
        · exact hm (hnew path (hsub path hp) id x f hq)
        · exact (List.pairwise_cons.1 hd).1 path hp id x' f' id x f hq' hq rfl
    have hq := p4 (fun path id x f ho hq => hnew path (by subst ho; exact List.mem_cons_self ..) id x f hq)
    have := ih h2 p1 hd1 hnew1
    intro x
    have := this x
    have := hq x
    omega

theorem unloadAll_count : ∀ {d front : Dict (Nat × Template)} {log : List Ev} {r : Dict (Nat × Template) × List Ev},
    unloadAll front d log = .ok () r → ∀ x, r.2.count (.opened x) = log.count (.opened x) ∧
      r.2.count (.closed x) = log.count (.closed x) + holds x d := by
  intro d
  induction d with
  | nil => intro front log r h x; cases h; simp [holds]
  | cons y d ih =>
    intro front log r h x
    obtain ⟨id, hh, t⟩ := y
    rw [unloadAll] at h
    split at h
    · rename_i t1 log1 hu
      obtain ⟨l, hl, hn⟩ := unload_neutral hu
      have hc := hn.count x
      obtain ⟨i1, i2⟩ := ih h x
      rw [i1, i2, hl]
      unfold holds
      by_cases hx : hh = x
      · subst hx; simp [List.count_append, List.count_cons, List.countP_cons, hc]; omega
      · simp [List.count_append, List.count_cons, List.countP_cons, hc, hx]
    · cases h
    · cases h
    · cases h

theorem unloadTemplates_count {m m' : Manager} (h : unloadTemplates m = .ok () m') (x : Nat) :
    m'.log.count (.opened x) = m.log.count (.opened x) ∧
      m'.log.count (.closed x) = m.log.count (.closed x) + holds x m.templates := by
  unfold unloadTemplates at h
  split at h
  · rename_i he
    cases h
    have : m.templates = [] := List.isEmpty_iff.1 he
    simp [this, holds]
  · split at h
    · rename_i ts log1 hu
      have hc := unloadAll_count hu x
      split at h
      · rename_i log2 hd
        cases h
        obtain ⟨l, hl, hn⟩ := destroyAll_neutral hd
        have hn := hn.count x
        simp [hl, List.count_append, hn, hc]
      · cases h
      · cases h
      · cases h
    · cases h
    · cases h
    · cases h

/-- Loading any files whose identifiers are distinct, using the templates in any way and then unloading them closes every
library as often as it was opened. -/
theorem C61_balanced {env : Env} {paths : List Str} {bus : Option Nat} {w : Bus.World} {ops : List Op} {m m' : Manager}
    (hd : DistinctIds env (loadPaths ops)) (hr : performAll env ops (emptyManager paths bus w) = some m)
    (hu : unloadTemplates m = .ok () m') (x : Nat) : m'.log.count (.opened x) = m'.log.count (.closed x) := by
  have h1 := performAll_eq hr Dict.sorted_nil hd (fun _ _ _ _ _ _ => rfl) x
  have h2 := unloadTemplates_count hu x
  simp [emptyManager, holds] at h1
  simp only [holds] at h2
  omega

/-- After `UnloadTemplates` no template is left, so the second call, which the destructor makes, unloads nothing: no
library is closed twice. -/
theorem C61_unload_twice {m m' : Manager} (h : unloadTemplates m = .ok () m') :
    m'.templates = [] ∧ unloadTemplates m' = .ok () m' := by
  have he : m'.templates = [] := by
    unfold unloadTemplates at h
    split at h
    · rename_i he; cases h; exact List.isEmpty_iff.1 he
    · split at h
      · split at h <;> cases h; rfl
      · cases h
      · cases h
      · cases h
  exact ⟨he, by simp [unloadTemplates, he]⟩

/-- Loading a second library with an identifier that is already loaded drops the first handle: however the manager is
used afterwards, after unloading the first library has been opened more often than closed. -/
theorem C61_second_load_leaks {env : Env} {paths : List Str} {bus : Option Nat} {w : Bus.World} {ops ops' : List Op}
    {m m1 m2 m3 : Manager} {path id : Str} {x y : Nat} {t : Template} {f : Str → Made} {r : Bool}
    (hr : performAll env ops (emptyManager paths bus w) = some m) (hold : m.templates.find id = some (x, t))
    (hq : Qualifies env path id y f) (hl : loadTemplate env path m = .ok r m1)
    (hr' : performAll env ops' m1 = some m2) (hu : unloadTemplates m2 = .ok () m3) :
    m3.log.count (.closed x) < m3.log.count (.opened x) := by
  obtain ⟨hs, h1⟩ := performAll_le hr Dict.sorted_nil
  have h1 := h1 x
  have h0 : holds x ([] : Dict (Nat × Template)) = 0 := rfl
  simp [emptyManager, h0] at h1
  have hload : m1.templates.Sorted ∧ m.log.count (.opened x) + m1.log.count (.closed x) + holds x m1.templates <
      m1.log.count (.opened x) + m.log.count (.closed x) + holds x m.templates := by
    rcases loadTemplate_effect hl with ⟨ht, hlog⟩ | ⟨id', x', f', l, hq', ht, hlog, hn⟩
    · exfalso
      have hrt : r = true := (C60_loaded_iff hl).2 ⟨id, y, f, hq⟩
      subst hrt
      rcases hlog with hlog | ⟨z, hlog⟩
      · have h2 := C60_loaded_iff hl
        unfold loadTemplate useLibrary at hl
        rw [Fs.cstr_eq] at hl
        obtain ⟨lib, e1, e2, e3⟩ := hq.openable
        have hc := (candidate_iff env.fs path).2 ⟨hq.exist, hq.named⟩
        have hid : id.isEmpty = false := by
          cases hid : id with
          | nil => exact absurd hid hq.identified
          | cons _ _ => rfl
        simp only [hc, if_true, e1, e2, e3, hid] at hl
        simp [storeTemplate, hold] at hl
        split at hl
        · rename_i u log1 hdt
          obtain ⟨l, hl2, _⟩ := destroyTemplate_neutral hdt
          cases hl
          rw [hl2] at hlog
          have := congrArg List.length hlog
          simp at this
        · cases hl
        · cases hl
        · cases hl
      · unfold loadTemplate useLibrary at hl
        rw [Fs.cstr_eq] at hl
        obtain ⟨lib, e1, e2, e3⟩ := hq.openable
        have hc := (candidate_iff env.fs path).2 ⟨hq.exist, hq.named⟩
        have hid : id.isEmpty = false := by
          cases hid : id with
          | nil => exact absurd hid hq.identified
          | cons _ _ => rfl
        simp only [hc, if_true, e1, e2, e3, hid] at hl
        simp [storeTemplate, hold] at hl
        split at hl
        · rename_i u log1 hdt
          obtain ⟨l, hl2, hn⟩ := destroyTemplate_neutral hdt
          cases hl
          rw [hl2] at hlog
          have := congrArg (fun q => q.count (.closed z)) hlog
          have hz := hn.count z
          simp [List.count_append, List.count_cons, hz] at this
        · cases hl
        · cases hl
        · cases hl
    · have hid : id' = id ∧ x' = y := by
        obtain ⟨lib, e1, e2, _⟩ := hq.openable
        obtain ⟨lib', e1', e2', _⟩ := hq'.openable
        rw [e1] at e1'
        cases e1'
        rw [e2] at e2'
        cases e2'
        exact ⟨rfl, rfl⟩
      obtain ⟨rfl, rfl⟩ := hid
      refine ⟨by rw [ht]; exact Dict.insert_sorted hs, ?_⟩
      have hn := hn.count x
      have hcp := countP_insert_some (fun e => e.2.1 == x) (v := (x', ⟨id', some f', []⟩)) hs hold
      rw [ht, hlog]
      unfold holds
      by_cases hy : x' = x <;> simp [List.count_append, List.count_cons, hn, hy] at hcp ⊢ <;> omega
  obtain ⟨hs1, h2⟩ := hload
  have h3 := (performAll_le hr' hs1).2 x
  have h4 := unloadTemplates_count hu x
  omega

/-! ### The hypotheses are met -/

/-- A world without buses is enough for loading. -/
def noWorld : Bus.World :=
  { nb := 0, bus := fun _ => Bus.noBus, ns := 0, sub := fun _ => ⟨[], none, 0⟩, np := 0, pub := fun _ => ⟨[], 0, false⟩, queue := [] }

example : (match performAll someEnv [.load (bs "/p/libplugin_a.so"), .load (bs "/p/libplugin_b.so")] (emptyManager [] none noWorld) with
      | some m => match unloadTemplates m with
        | .ok _ m' => m'.log
        | _ => []
      | none => []) = [.opened 1, .opened 2, .closed 2, .closed 1] := by
  decide +kernel

example : DistinctIds someEnv (loadPaths [.load (bs "/p/libplugin_a.so"), .load (bs "/p/libplugin_b.so")]) := by
  have hb : someEnv.dlopen (untilNul (bs "/p/libplugin_b.so")) = some (2, ⟨some (some []), some (fun _ => .null)⟩) := by
    have h0 : untilNul (bs "/p/libplugin_b.so") = bs "/p/libplugin_b.so" := by decide
    have h1 : bs "/p/libplugin_b.so" ≠ bs "/p/libplugin_a.so" := by decide
    simp [someEnv, h0, h1]
  simp only [DistinctIds, loadPaths, List.pairwise_cons, List.mem_singleton]
  refine ⟨?_, by simp⟩
  rintro q rfl id h f id' h' f' _ hq
  obtain ⟨lib, h3, h4, _⟩ := hq.openable
  rw [hb] at h3
  cases h3
  cases h4
  exact absurd rfl hq.identified

example : (match performAll someEnv [.load (bs "/p/libplugin_a.so"), .load (bs "/p/libplugin_c.so")] (emptyManager [] none noWorld) with
      | some m => match unloadTemplates m with
        | .ok _ m' => m'.log
        | _ => []
      | none => []) = [.opened 1, .opened 3, .closed 3] := by
  decide +kernel

end LP.Plugin
