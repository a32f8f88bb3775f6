import Verif.Lemma.Overload
import Verif.Prop.Wire
import Verif.Prop.Paths
/-! # C114: what a value given to a Datagram becomes depends on its C++ type -/
namespace LP.Overload
open Heap Tree

/-! ## C114 -/

/-- Which assignments compile: all but those of `unsigned`, `long`, `unsigned long`, `nullptr` and `shared_ptr<Data<T>>`,
whatever is assigned to. -/
theorem C114_compiles (e : Arg) (x : Nat) (p : List Sel) : (assignStmt x p e).isSome = true ↔ e.compiles := by
  cases e <;> simp [assignStmt, assignArg, Arg.ty, resolve_table, Arg.convert, Arg.compiles]

/-- `x[p1][p2]... = e;` in any program puts the document `e.assigned` at that position, or throws what indexing throws. -/
theorem C114_assign {s : DState} (hs : Reachable s) {x : Nat} {t : Tree} (ht : Holds s x t) (p : List Sel) {e : Arg} {u : Tree}
    (he : e.assigned = some u) :
    ∃ m s', assignStmt x p e = some m ∧ Ends (m s) (editAt p (eSet u) t).2 s' ∧ Holds s' x (editAt p (eSet u) t).1 := by
  obtain ⟨m, h1, h2⟩ := assignArg_does he
  obtain ⟨s', h3, _, h4, _⟩ := edit_at hs.inv ht p (F := eSet u) (m := m) h2
  exact ⟨_, s', by simp only [assignStmt, h1, Option.map_some], h3, h4⟩

/-- `Datagram x(e);` in any program makes a datagram with the document `e.declared` and leaves the others alone. -/
theorem C114_declare (s : DState) (x : Nat) {e : Arg} {u : Tree} (he : e.declared = some u) :
    ∃ m s', declare x e = some m ∧ m s = .ok () s' ∧ Holds s' x u ∧ ∀ z w, z ≠ x → Holds s z w → Holds s' z w := by
  have key : ∀ n : Node Ptr, (∀ (h' : Heap) c, h'.node c = n → c < h'.next → Rep h' (fun x => x < h'.next) u c) →
      ∃ s', Cmd.bindVar x (Datagram.make n) s = .ok () s' ∧ Holds s' x u ∧ ∀ z w, z ≠ x → Holds s z w → Holds s' z w := by
    intro n hu
    refine ⟨_, rfl, ⟨s.heap.next, by simp, hu _ _ (by simp) (by simp)⟩, ?_⟩
    rintro z w hz ⟨b, hb, hw⟩
    have hex := ext_alloc s.heap n
    exact ⟨b, by simp [hz, hb], Rep.carry hw hex.1 (fun y hy _ => hex.2 y hy)⟩
  cases e <;> simp only [Arg.declared, Option.some.injEq, reduceCtorEq, Option.map_eq_some_iff] at he
  case data =>
    obtain ⟨v, rfl, rfl⟩ := he
    obtain ⟨s', h⟩ := key (Node.ofData (some v)) (rep_ofVal v)
    exact ⟨_, s', rfl, h⟩
  case kind ty =>
    subst he
    obtain ⟨s', h⟩ := key (Node.ofType ty) (rep_ofType ty)
    exact ⟨_, s', rfl, h⟩
  all_goals
    subst he
    obtain ⟨s', h⟩ := key (Node.ofVal _) (rep_ofVal _)
    exact ⟨_, s', rfl, h⟩

/-- The declaration fails to compile for `nullptr` only. -/
theorem C114_declare_compiles (x : Nat) (e : Arg) : declare x e = none ↔ e = .nullPtr := by
  cases e <;> simp [declare]

/-- `Datagram x(pointer);` with the pointer to the object behind another datagram `y` is no copy: `x` is a second name of
`y`, no other datagram changes, and what is then assigned through `x` is what `y` holds. -/
theorem C114_declare_handle {s : DState} (hs : Reachable s) {x y a : Nat} (hy : s.env y = some a) (hxy : y ≠ x) {e : Arg} {u : Tree}
    (he : e.assigned = some u) :
    ∃ m s1 m2 s2, declare x (.raw a) = some m ∧ m s = .ok () s1 ∧ (∀ z w, z ≠ x → Holds s z w → Holds s1 z w) ∧
      (∀ w, Holds s y w → Holds s1 x w) ∧ assignStmt x [] e = some m2 ∧ m2 s1 = .ok () s2 ∧ Holds s2 x u ∧ Holds s2 y u := by
  have hi : Inv ⟨s.heap, fun z => if z = x then some a else s.env z⟩ := by
    refine ⟨hs.inv.wf, ?_⟩
    intro z b hb
    simp only at hb
    split at hb
    · cases hb; exact hs.inv.valid y a hy
    · exact hs.inv.valid z b hb
  have hx : (⟨s.heap, fun z => if z = x then some a else s.env z⟩ : DState).env x ≠ none := by simp
  obtain ⟨t, ht⟩ := hi.holds hx
  obtain ⟨m, h1, h2⟩ := assignArg_does he
  obtain ⟨s', h3, h5, h4, h6⟩ := edit_at hi ht [] (F := eSet u) (m := m) h2
  refine ⟨_, _, _, s', rfl, rfl, ?_, ?_, by simp only [assignStmt, h1, Option.map_some], h3, h4, ?_⟩
  · rintro z w hz ⟨b, hb, hw⟩
    exact ⟨b, by simp [hz, hb], hw⟩
  · rintro w ⟨b, hb, hw⟩
    rw [hy] at hb
    exact ⟨b, by simp [← hb], hw⟩
  · obtain ⟨b, hb, hw⟩ := h4
    rw [h6] at hb
    simp only [if_pos, Option.some.injEq] at hb
    subst hb
    exact ⟨a, by rw [h6]; simp [hxy, hy], hw⟩

/-- A string literal assigned to a place is stored as the boolean `true`: whatever the text, the resulting state is the same;
reading a string there gives the default, reading a boolean gives `true`. -/
theorem C114_literal_is_true {s : DState} (hs : Reachable s) {x : Nat} (hx : s.env x ≠ none) (ks : List Str)
    (hks : ∀ k ∈ ks, slash ∉ k) (hlast : ks.getLast? ≠ some []) :
    ∃ s', (∀ text a, (assignStmt x (ks.map .key) (.charPtr text a)).map (fun m => m s) = some (.ok () s')) ∧
      (∀ pd po dflt, observe pd po (.getPath .str (joinSlash ks) (.str dflt)) s' x = some (.ok (.val (.str dflt)))) ∧
      (∀ pd po dflt, observe pd po (.getPath .bool (joinSlash ks) (.bool dflt)) s' x = some (.ok (.val (.bool true)))) := by
  obtain ⟨t, ht⟩ := hs.inv.holds hx
  obtain ⟨m, s', h1, h2, h3⟩ := C114_assign hs ht (ks.map .key) (e := .charPtr [] 0) rfl
  obtain ⟨h4, h5⟩ := walk_editAt_self (.value (.bool true)) ks t
  rw [h4] at h2 h3
  refine ⟨s', fun text a => ?_, fun pd po dflt => ?_, fun pd po dflt => ?_⟩
  · have : assignStmt x (ks.map .key) (.charPtr text a) = assignStmt x (ks.map .key) (.charPtr [] 0) := by
      simp only [assignStmt, assignArg, Arg.ty, resolve_table, Arg.convert]
    rw [this, h1]
    simpa [Ends] using h2
  · rw [h3.observe]; simp [answer, components_join ks hks hlast, valueAt, h5, Val.ty]
  · rw [h3.observe]; simp [answer, components_join ks hks hlast, valueAt, h5, Val.ty]

/-- A Datagram constructed from a string literal has a value that reads neither as a string nor as any of the other three
value types, and that no receiver gets: it arrives as Empty. -/
theorem C114_constructed_literal (s : DState) (x : Nat) (text : Str) (a : Nat) (s2 : DState) (y : Nat) :
    ∃ m s', declare x (.charPtr text a) = some m ∧ m s = .ok () s' ∧
      (∀ pd po, observe pd po .getType s' x = some (.ok (.ty .value))) ∧
      (∀ pd po T, T = .str ∨ T = .int ∨ T = .dbl ∨ T = .bool → observe pd po (.getVal T) s' x = some (.error .invalidOperation) ∧
        ∀ path dflt, observe pd po (.getPath T path dflt) s' x = some (.ok (.val dflt))) ∧
      ∃ f s3, observeWire s' x = some f ∧ Cmd.run (.receive y f) s2 = .ok () s3 ∧
        ∀ pd po, observe pd po .isEmpty s3 y = some (.ok (.bool true)) := by
  obtain ⟨m, s', h1, h2, h3, _⟩ := C114_declare s x (e := .charPtr text a) rfl
  obtain ⟨f, s3, h4, h5, h6, _⟩ := C14_round_trip h3 s2 y
  refine ⟨m, s', h1, h2, fun pd po => by rw [h3.observe]; rfl, ?_, f, s3, h4, h5, fun pd po => by rw [h6.observe]; rfl⟩
  intro pd po T hT
  have hty : (Val.other 7 a).ty ≠ T := by rcases hT with rfl | rfl | rfl | rfl <;> simp [Val.ty]
  refine ⟨by rw [h3.observe]; simp [answer, hty], fun path dflt => ?_⟩
  rw [h3.observe]
  simp only [answer, valueAt]
  cases components path with
  | nil => simp [walk, hty]
  | cons k ks => simp [walk]

/-- The same argument given by declaration and by assignment to a new Datagram makes the same for `bool`, `int`, `double`,
`std::string`, `shared_ptr<DataBase>`, `RawDatagramType` and classes, and for nothing else that compiles both ways: a
client can tell the two apart for every `char`, `short`, enumeration, `float` and pointer. -/
theorem C114_declare_versus_assign {s : DState} (hs : Reachable s) (x : Nat) {e : Arg} {u v : Tree} (hu : e.declared = some u)
    (hv : e.assigned = some v) :
    ∃ m1 s1 s2 m2 s3, declare x e = some m1 ∧ m1 s = .ok () s1 ∧ Cmd.run (.make x .empty) s = .ok () s2 ∧
      assignStmt x [] e = some m2 ∧ m2 s2 = .ok () s3 ∧
      ((∀ pd po q, observe pd po q s1 x = observe pd po q s3 x) ↔
        match e with
        | .char _ | .short _ | .enum _ | .float _ _ | .charPtr _ _ | .pointer _ => False
        | _ => True) := by
  obtain ⟨m1, s1, h1, h2, h3, _⟩ := C114_declare s x hu
  obtain ⟨_, s2, h4, h5, h6, _⟩ := C114_declare s x (e := .kind .empty) (u := .empty) rfl
  have h4' : Cmd.run (.make x .empty) s = .ok () s2 := by
    have : declare x (.kind .empty) = some (Cmd.run (.make x .empty)) := rfl
    rw [this, Option.some.injEq] at h4; rw [h4]; exact h5
  have hs2 := hs.step h4'
  obtain ⟨m2, s3, h7, h8, h9⟩ := C114_assign hs2 h6 [] hv
  refine ⟨m1, s1, s2, m2, s3, h1, h2, h4', h7, h8, ?_⟩
  have hobs : (∀ pd po q, observe pd po q s1 x = observe pd po q s3 x) ↔ ∀ pd po q, answer pd po u q = answer pd po v q := by
    constructor
    · intro h pd po q
      have := h pd po q
      rw [h3.observe, h9.observe] at this
      simpa [editAt, eSet] using this
    · intro h pd po q
      rw [h3.observe, h9.observe]
      simpa [editAt, eSet] using h pd po q
  rw [hobs]
  have differ : ∀ a b : Val, a.ty ≠ b.ty → ¬ ∀ pd po q, answer pd po (.value a) q = answer pd po (.value b) q := by
    intro a b hab h
    have := h (fun _ => []) (fun _ _ => []) (.getVal a.ty)
    simp [answer, hab.symm] at this
  cases e <;> simp only [Arg.declared, Arg.assigned, Option.some.injEq, reduceCtorEq] at hu hv <;> (try subst hu) <;> (try subst hv) <;>
    (try simp only [implies_true, iff_false]) <;> (try exact differ _ _ (by simp [Val.ty]))
  rw [hu, Option.some.injEq] at hv; subst hv; simp

/-- `d.Get("path", "literal")` asks for a `const char*`: it returns the literal however the document looks, unless there is
a value of that very type at the path; in particular if there is a string. -/
theorem C114_literal_default {s : DState} {x : Nat} {t : Tree} (ht : Holds s x t) (path : Str) (lit : Nat) :
    (∀ pd po, observe pd po (.getPath (.other 7) path (.other 7 lit)) s x = some (.ok (.val (.other 7 lit)))) ↔
      ∀ c, t.walk (components path) = some (.value (.other 7 c)) → c = lit := by
  have hob : ∀ pd po, observe pd po (.getPath (.other 7) path (.other 7 lit)) s x =
      some (.ok (.val ((t.valueAt (.other 7) (components path)).getD (.other 7 lit)))) := fun pd po => by rw [ht.observe]; rfl
  simp only [hob, Option.some.injEq, Except.ok.injEq, Ans.val.injEq, valueAt]
  constructor
  · intro h c hc
    have := h (fun _ => []) (fun _ _ => [])
    simp [hc, Val.ty] at this
    exact this
  · intro h _ _
    split
    · rename_i v hv
      split
      · rename_i hty
        cases v <;> simp [Val.ty] at hty
        subst hty
        simp [h _ hv]
      · rfl
    · rfl

/-- What assignment keeps on the way to another program: for an assigned argument of one of the four value types, or one
that converts to it, the receiver reads the value; for a pointer to a RawDatagram or an object of a class it gets Empty. -/
theorem C114_wire {s : DState} (hs : Reachable s) {x : Nat} (hx : s.env x ≠ none) {e : Arg} {u : Tree} (he : e.assigned = some u)
    (s2 : DState) (y : Nat) :
    ∃ m s' f s3, assignStmt x [] e = some m ∧ m s = .ok () s' ∧ observeWire s' x = some f ∧ Cmd.run (.receive y f) s2 = .ok () s3 ∧
      Holds s3 y u.wire := by
  obtain ⟨t, ht⟩ := hs.inv.holds hx
  obtain ⟨m, s', h1, h2, h3⟩ := C114_assign hs ht [] he
  obtain ⟨f, s3, h4, h5, h6, _⟩ := C14_round_trip h3 s2 y
  exact ⟨m, s', f, s3, h1, h2, h4, h5, h6⟩

example : ∃ s, Reachable s ∧ ∃ s', (assignStmt 0 [.key (bs "name")] (.charPtr (bs "lamp") 5)).map (fun m => m s) = some (.ok () s') ∧
    (∀ pd po, observe pd po (.getPath .str (bs "name") (.str (bs "none"))) s' 0 = some (.ok (.val (.str (bs "none"))))) := by
  obtain ⟨s, hs, hx⟩ := Ex.state1
  obtain ⟨s', h1, h2, _⟩ := C114_literal_is_true hs hx [bs "name"] (by decide) (by decide)
  exact ⟨s, hs, s', h1 _ _, fun pd po => h2 pd po _⟩

example : ∃ s a, Reachable s ∧ s.env 0 = some a ∧ 0 ≠ 1 ∧ (Arg.int 5).assigned = some (.value (.int 5)) := by
  obtain ⟨s, hs, hx⟩ := Ex.state1
  obtain ⟨a, ha⟩ := Option.ne_none_iff_exists'.1 hx
  exact ⟨s, a, hs, ha, by decide, rfl⟩

example : (assignStmt 0 [] (.unsigned 3)).isSome = false := by
  have := C114_compiles (.unsigned 3) 0 []
  simp only [Arg.compiles, iff_false, Bool.not_eq_true] at this
  exact this

example : ∃ s x, Reachable s ∧ s.env x ≠ none ∧ (Arg.raw 3).assigned = some (.value (.other 12 3)) ∧ Tree.wire (.value (.other 12 3)) = .empty ∧
    (Arg.float 3 5).declared ≠ none ∧ (Arg.float 3 5).assigned ≠ none := by
  obtain ⟨s, hs, hx⟩ := Ex.state1
  exact ⟨s, 0, hs, hx, rfl, rfl, by decide, by decide⟩

example : ∃ s t, Holds s 0 t ∧ ∀ pd po, observe pd po (.getPath (.other 7) (bs "a/b") (.other 7 1)) s 0 = some (.ok (.val (.other 7 1))) := by
  have hh : Holds ⟨Ex.two, fun y => if y = 0 then some 0 else none⟩ 0 Ex.twoTree := ⟨0, by simp, Ex.two_rep⟩
  refine ⟨_, _, hh, (C114_literal_default hh (bs "a/b") 1).2 ?_⟩
  intro c h
  have h2 : some (Tree.value (.int 7)) = some (.value (.other 7 c)) := h
  simp at h2

end LP.Overload
