import Verif.Lemma.Path
/-! # C03–C06: nested writes and path reads -/
namespace LP
open Heap Tree

namespace Ex
/-- A state some program reaches: variable 0 holds `{"k": 5, "l": [true]}`, variables 1 and 2 are handles on its parts. -/
def prog1 : List Cmd := [.make 0 .empty, .indexKey 1 0 (bs "k"), .assignVal 1 (.int 5), .indexKey 2 0 (bs "l"), .addVal 2 (.bool true)]
theorem state1 : ∃ s, Reachable s ∧ s.env 0 ≠ none := by
  obtain ⟨s, hr, inv⟩ := runAll_inv prog1 Inv.init (by simp [prog1, Cmd.Sound])
  have h2 : (Cmd.runAll prog1 Cmd.init).map (fun s => s.env 0) = some (some 0) := rfl
  rw [hr] at h2
  simp only [Option.map_some, Option.some.injEq] at h2
  exact ⟨s, ⟨prog1, hr⟩, by rw [h2]; simp⟩
end Ex

/-! ## C03 -/

/-- After `x[k1]...[kn] = v`, `Get<T>("k1/.../kn", default)` on `x` returns `v`, whatever `x` held and whatever handles
are held on its parts. (The last key must not be empty and no key may contain a slash, see C06.) -/
theorem C03_nested_write_read_back {s : DState} (hs : Reachable s) {x : Nat} (hx : s.env x ≠ none) (ks : List Str)
    (hks : ∀ k ∈ ks, slash ∉ k) (hlast : ks.getLast? ≠ some []) (v : Val) :
    ∃ s', Stmt.run (.setVal x (ks.map .key) v) s = .ok () s' ∧
      ∀ pd po dflt, observe pd po (.getPath v.ty (joinSlash ks) dflt) s' x = some (.ok (.val v)) := by
  obtain ⟨t, ht⟩ := hs.inv.holds hx
  obtain ⟨s', he, inv', hh, _⟩ := stmt_edit hs.inv ht (c := .setVal x (ks.map .key) v) rfl
  obtain ⟨h1, h2⟩ := walk_editAt_self (.value v) ks t
  rw [h1] at he hh
  refine ⟨s', he, fun pd po dflt => ?_⟩
  rw [hh.observe]
  simp only [answer, components_join ks hks hlast, valueAt, h2, if_true, Option.getD_some]

/-- The same through a chain of `operator[]`: whenever `x[p1]...[pn] = v` succeeds, reading `x[p1]...[pn].Get<T>()`
returns `v`; the positions may mix keys and indices, and keys may be any strings. -/
theorem C03_chain_write_read_back {s : DState} (hs : Reachable s) {x : Nat} (hx : s.env x ≠ none) (p : List Sel) (v : Val)
    {s' : DState} (hr : Stmt.run (.setVal x p v) s = .ok () s') :
    ∀ pd po, observeAt pd po (.getVal v.ty) p s' x = some (.ok (.val v)) := by
  obtain ⟨t, ht⟩ := hs.inv.holds hx
  obtain ⟨s2, he, inv', hh, _⟩ := stmt_edit hs.inv ht (c := .setVal x p v) rfl
  simp only [Ends, hr] at he
  have hnone : (editAt p (eSet (.value v)) t).2 = none ∧ s2 = s' := by
    cases h : (editAt p (eSet (.value v)) t).2 with
    | none => rw [h] at he; simp only [Res.ok.injEq, true_and] at he; exact ⟨rfl, he.symm⟩
    | some e => rw [h] at he; cases he
  obtain ⟨hn, rfl⟩ := hnone
  have key : ∀ (p : List Sel) (t : Tree), (editAt p (eSet (.value v)) t).2 = none →
      subAt p (editAt p (eSet (.value v)) t).1 = .value v ∧ (editAt p eTouch (editAt p (eSet (.value v)) t).1).2 = none := by
    intro p
    induction p with
    | nil => intro t _; exact ⟨rfl, rfl⟩
    | cons a p ih =>
      intro t hn
      cases a with
      | key k =>
        simp only [editAt] at hn
        obtain ⟨h1, h2⟩ := ih _ hn
        simp only [editAt, subAt, asDict_dict, Dict.find_insert_self, Option.getD_some]
        exact ⟨h1, h2⟩
      | idx i =>
        simp only [editAt] at hn ⊢
        cases h : t.asList[i.toNat]? with
        | none => simp [h] at hn
        | some u =>
          simp only [h] at hn
          obtain ⟨h1, h2⟩ := ih _ hn
          have hlt : i.toNat < t.asList.length := by rw [List.getElem?_eq_some_iff] at h; exact h.1
          simp only [editAt, subAt, asList_list, List.getElem?_set_self hlt, Option.getD_some]
          exact ⟨h1, h2⟩
  intro pd po
  obtain ⟨h1, h2⟩ := key p t hn
  rw [hh.observeAt inv', h2, h1]
  simp [answer]

example : ∃ s, Reachable s ∧ ∃ s', Stmt.run (.setVal 0 [.key (bs "l"), .key (bs "m")] (.str (bs "new"))) s = .ok () s' ∧
    ∀ pd po dflt, observe pd po (.getPath .str (bs "l/m") dflt) s' 0 = some (.ok (.val (.str (bs "new")))) := by
  obtain ⟨s, hs, hx⟩ := Ex.state1
  obtain ⟨s', hr, h⟩ := C03_nested_write_read_back hs hx [bs "l", bs "m"] (by decide) (by decide) (.str (bs "new"))
  exact ⟨s, hs, s', hr, h⟩
example : ∃ s, Reachable s ∧ ∃ s', Stmt.run (.setVal 0 [.key (bs "a/b"), .key []] (.bool true)) s = .ok () s' ∧
    ∀ pd po, observeAt pd po (.getVal .bool) [.key (bs "a/b"), .key []] s' 0 = some (.ok (.val (.bool true))) := by
  obtain ⟨s, hs, hx⟩ := Ex.state1
  obtain ⟨t, ht⟩ := hs.inv.holds hx
  obtain ⟨s', he, _⟩ := stmt_edit hs.inv ht (c := .setVal 0 [.key (bs "a/b"), .key []] (.bool true)) rfl
  exact ⟨s, hs, s', he, C03_chain_write_read_back hs hx _ _ he⟩

/-! ## C04 -/

/-- A statement acting at position `p` of `x` (assigning, adding, removing, clearing or just opening it) leaves what is at
every diverging position as it was, even when it throws and even when it converts values or lists on its way into
dictionaries. -/
theorem C04_off_position {s : DState} (hs : Reachable s) {x : Nat} {t : Tree} (ht : Holds s x t) {c : Stmt} {p : List Sel} {F : Edit}
    (hc : c.edit? = some (x, p, F)) :
    ∃ s' e t', Ends (c.run s) e s' ∧ Holds s' x t' ∧ ∀ q, Diverge p q → t'.lookup q = t.lookup q := by
  obtain ⟨s', he, _, hh, _⟩ := stmt_edit hs.inv ht hc
  exact ⟨s', _, _, he, hh, fun q hq => lookup_editAt_diverge F [] p q t hq⟩

/-- Path reads off the written path are unaffected by `x[k1]...[kn] = v`. -/
theorem C04_nested_write_off_path {s : DState} (hs : Reachable s) {x : Nat} (hx : s.env x ≠ none) (ks : List Str) (v : Val)
    (path : Str) (hdiv : ∃ c k j ks' js', k ≠ j ∧ ks = c ++ k :: ks' ∧ components path = c ++ j :: js') :
    ∃ s', Stmt.run (.setVal x (ks.map .key) v) s = .ok () s' ∧
      ∀ pd po ty dflt, observe pd po (.getPath ty path dflt) s' x = observe pd po (.getPath ty path dflt) s x := by
  obtain ⟨t, ht⟩ := hs.inv.holds hx
  obtain ⟨s', he, inv', hh, _⟩ := stmt_edit hs.inv ht (c := .setVal x (ks.map .key) v) rfl
  obtain ⟨h1, _⟩ := walk_editAt_self (.value v) ks t
  have h3 := lookup_editAt_diverge (eSet (.value v)) [] (ks.map .key) ((components path).map .key) t (diverge_keys hdiv)
  rw [List.nil_append, List.nil_append, lookup_map_key, lookup_map_key] at h3
  rw [h1] at he
  refine ⟨s', he, fun pd po ty dflt => ?_⟩
  rw [hh.observe, ht.observe]
  simp only [answer, valueAt, h3]

example : ∃ s, Reachable s ∧ ∃ s', Stmt.run (.setVal 0 [.key (bs "l"), .key (bs "m")] (.int 1)) s = .ok () s' ∧
    ∀ pd po ty dflt, observe pd po (.getPath ty (bs "l/n/o") dflt) s' 0 = observe pd po (.getPath ty (bs "l/n/o") dflt) s 0 := by
  obtain ⟨s, hs, hx⟩ := Ex.state1
  obtain ⟨s', hr, h⟩ := C04_nested_write_off_path hs hx [bs "l", bs "m"] (.int 1) (bs "l/n/o")
    ⟨[bs "l"], bs "m", bs "n", [], [bs "o"], by decide, by decide, by decide⟩
  exact ⟨s, hs, s', hr, h⟩
example : ∃ s t, Reachable s ∧ Holds s 0 t ∧ ∃ s' e t', Ends ((Stmt.removeIdx 0 [.key (bs "l"), .idx 0] 3).run s) e s' ∧ Holds s' 0 t' ∧
    ∀ q, Diverge [.key (bs "l"), .idx 0] q → t'.lookup q = t.lookup q := by
  obtain ⟨s, hs, hx⟩ := Ex.state1
  obtain ⟨t, ht⟩ := hs.inv.holds hx
  exact ⟨s, t, hs, ht, C04_off_position hs ht rfl⟩

/-! ## C05 -/

/-- `Get<T>(path, default)` never throws, changes nothing, and returns the stored value exactly when the keys of the path
lead through dictionaries to a value of exactly the requested type. Sub-datagrams may be shared. -/
theorem C05_path_get_exact {h : Heap} {t : Tree} {a : Nat} (ht : Rep h (fun x => x < h.next) t a) (ty : VTy) (path : Str) (dflt : Val) :
    (∀ v, t.walk (components path) = some (.value v) → v.ty = ty → Datagram.pathGet a ty path dflt h = .ok v h) ∧
    ((∀ v, t.walk (components path) = some (.value v) → v.ty ≠ ty) → Datagram.pathGet a ty path dflt h = .ok dflt h) := by
  have hd := Rep.depth_next ht
  have hq := query_rep (fun _ => []) (fun _ _ => []) ht (by omega) (.getPath ty path dflt)
  have hp : Datagram.pathGet a ty path dflt h = .ok ((t.valueAt ty (components path)).getD dflt) h := by
    simp only [Query.run, M.bind_run, answer] at hq
    split at hq <;> simp_all [M.pure_run]
  rw [hp]
  refine ⟨fun v hw hty => ?_, fun hno => ?_⟩
  · simp [valueAt, hw, hty]
  · unfold valueAt
    split
    · rename_i v hw; rw [if_neg (hno v hw)]; rfl
    · rfl

/-- In every state of every program, path reads return and never throw. -/
theorem C05_path_get_total {s : DState} (hs : Reachable s) {x : Nat} (hx : s.env x ≠ none) (pd : Dbl → Str) (po : Nat → Nat → Str)
    (ty : VTy) (path : Str) (dflt : Val) : ∃ v, observe pd po (.getPath ty path dflt) s x = some (.ok (.val v)) := by
  obtain ⟨t, ht⟩ := hs.inv.holds hx
  exact ⟨_, by rw [ht.observe]; rfl⟩

namespace Ex
/-- `{"a": {"b": 7}, "c": 8}` -/
def two : Heap := ⟨4, fun a => if a = 0 then ⟨.dict, [(bs "a", some 1), (bs "c", some 3)], [], none⟩
  else if a = 1 then ⟨.dict, [(bs "b", some 2)], [], none⟩
  else if a = 2 then ⟨.value, [], [], some (.int 7)⟩ else ⟨.value, [], [], some (.int 8)⟩⟩
/-- The document {"a": {"b": 7}, ...} of the examples (RawDatagram.h:192-241). -/
def twoTree : Tree := .dict [(bs "a", .dict [(bs "b", .value (.int 7))]), (bs "c", .value (.int 8))]
theorem two_rep : Rep two (fun x => x < two.next) twoTree 0 := by
  refine ⟨by decide, _, rfl, by unfold Dict.Sorted; decide, 1, _, rfl, ⟨by decide, _, rfl, by unfold Dict.Sorted; decide, 2, _, rfl, ⟨by decide, rfl⟩, rfl⟩,
    3, _, rfl, ⟨by decide, rfl⟩, rfl⟩
end Ex

example : Datagram.pathGet 0 .int (bs "a/b/") (.int 0) Ex.two = .ok (.int 7) Ex.two :=
  (C05_path_get_exact Ex.two_rep .int (bs "a/b/") (.int 0)).1 (.int 7) rfl rfl
example : Datagram.pathGet 0 .str (bs "a/b") (.str []) Ex.two = .ok (.str []) Ex.two :=
  (C05_path_get_exact Ex.two_rep .str (bs "a/b") (.str [])).2 (by
    intro v h
    have h2 : some (Tree.value (.int 7)) = some (.value v) := h
    simp only [Option.some.injEq, Tree.value.injEq] at h2
    subst h2; decide)

/-! ## C06 -/

/-- A trailing slash makes no difference. -/
theorem C06_trailing_slash {s : DState} (hs : Reachable s) (x : Nat) (pd : Dbl → Str) (po : Nat → Nat → Str)
    (ty : VTy) (dflt : Val) {path : Str} (hp : path ≠ []) (hl : path.getLast? ≠ some slash) :
    observe pd po (.getPath ty (path ++ [slash]) dflt) s x = observe pd po (.getPath ty path dflt) s x := by
  by_cases hx : s.env x = none
  · simp [observe, hx]
  · obtain ⟨t, ht⟩ := hs.inv.holds hx
    rw [ht.observe, ht.observe]
    simp only [answer, components_snoc hp hl]

/-- An entry of a dictionary whose key contains a slash is invisible to every path read: writing anything into it (at any
depth) changes no path read. -/
theorem C06_slash_keys_unreachable {s : DState} (hs : Reachable s) {x : Nat} {pd : Dbl → Str} {po : Nat → Nat → Str}
    (hx : observe pd po .getType s x = some (.ok (.ty .dict))) {k : Str} (hk : slash ∈ k) (p : List Str) (v : Val) :
    ∃ s', Stmt.run (.setVal x (.key k :: p.map .key) v) s = .ok () s' ∧
      ∀ path ty dflt, observe pd po (.getPath ty path dflt) s' x = observe pd po (.getPath ty path dflt) s x := by
  have hsc : s.env x ≠ none := by intro e; simp [observe, e] at hx
  obtain ⟨t, ht⟩ := hs.inv.holds hsc
  rw [ht.observe] at hx
  simp only [answer, Option.some.injEq, Except.ok.injEq, Ans.ty.injEq] at hx
  obtain ⟨s', he, inv', hh, _⟩ := stmt_edit hs.inv ht (c := .setVal x ((k :: p).map .key) v) rfl
  obtain ⟨h1, _⟩ := walk_editAt_self (.value v) (k :: p) t
  rw [h1] at he
  refine ⟨s', he, fun path ty dflt => ?_⟩
  rw [hh.observe, ht.observe]
  simp only [answer, valueAt]
  cases hcomp : components path with
  | nil =>
    cases t <;> simp_all [kind, walk, editAt]
  | cons j js =>
    have hj : k ≠ j := by
      intro e; subst e
      exact components_noslash _ path (Nat.le_refl _) k (by rw [hcomp]; simp) hk
    have h3 := lookup_editAt_diverge (eSet (.value v)) [] ((k :: p).map .key) ((components path).map .key) t
      (diverge_keys ⟨[], k, j, p, js, hj, rfl, hcomp⟩)
    rw [List.nil_append, List.nil_append, lookup_map_key, lookup_map_key, hcomp] at h3
    rw [h3]

/-- No path spells a key that contains a slash. -/
theorem C06_components_no_slash (path : Str) : ∀ k ∈ components path, slash ∉ k := components_noslash _ path (Nat.le_refl _)

example : ∃ s, Reachable s ∧ ∀ pd po ty dflt,
    observe pd po (.getPath ty (bs "l/m" ++ [slash]) dflt) s 0 = observe pd po (.getPath ty (bs "l/m") dflt) s 0 := by
  obtain ⟨s, hs, _⟩ := Ex.state1
  exact ⟨s, hs, fun pd po ty dflt => C06_trailing_slash hs 0 pd po ty dflt (by decide) (by decide)⟩
example : ∃ s, Reachable s ∧ ∃ s', Stmt.run (.setVal 0 [.key (bs "a/b")] (.int 1)) s = .ok () s' ∧
    ∀ path ty dflt, observe (fun _ => []) (fun _ _ => []) (.getPath ty path dflt) s' 0 = observe (fun _ => []) (fun _ _ => []) (.getPath ty path dflt) s 0 := by
  obtain ⟨s, hr, inv⟩ := runAll_inv [.make 0 .dict, .indexKey 1 0 (bs "k")] Inv.init (by simp [Cmd.Sound])
  have hs : Reachable s := ⟨_, hr⟩
  have : observe (fun _ => []) (fun _ _ => []) .getType s 0 = some (.ok (.ty .dict)) := by
    have h2 : (Cmd.runAll [.make 0 .dict, .indexKey 1 0 (bs "k")] Cmd.init).map (fun s => observe (fun _ => []) (fun _ _ => []) .getType s 0) =
      some (some (.ok (.ty .dict))) := rfl
    rw [hr] at h2; simpa using h2
  obtain ⟨s', h1, h2⟩ := C06_slash_keys_unreachable hs this (k := bs "a/b") (by decide) [] (.int 1)
  exact ⟨s, hs, s', h1, h2⟩

end LP
