import Verif.Lemma.RawBytes
/-! # C26, C27: RawBytes -/
namespace LP
open RawBytes

/-! ## C26 -/

/-- After any history of allowed statements (no copies by value; appended ranges lie inside existing contents, possibly
the object's own), every object that exists shows exactly the byte string the specification gives it. -/
theorem C26_contents (ops : List Op) (h : Shadow.init.AllAllowed ops) :
    ∃ w, runAll ops RawBytes.init = some w ∧ ∀ x,
      (w.obj x = none ↔ ops.foldl Shadow.step Shadow.init x = none) ∧
      ∀ o, w.obj x = some o → ∃ v, ops.foldl Shadow.step Shadow.init x = some v ∧ o.size = (v.getD []).length ∧
        RawBytes.observe w o = some ((v.getD []).map some) := by
  obtain ⟨w, hr, r⟩ := Rel.run ops Rel.init h
  exact ⟨w, hr, fun x => ⟨(r.same x).none_iff, fun o ho => r.observe ho⟩⟩

/-- In particular: one construction and any number of appended buffers of any sizes give their concatenation in order. -/
theorem C26_concatenation (first : Option (List UInt8)) (rest : List (List UInt8)) (x : Nat) :
    ∃ w o, runAll ((match first with | none => .make x | some b => .makeExt x b) :: rest.map (.appendExt x)) RawBytes.init = some w ∧
      w.obj x = some o ∧ o.size = (first.getD [] ++ rest.flatten).length ∧
      RawBytes.observe w o = some ((first.getD [] ++ rest.flatten).map some) := by
  have hall : ∀ (l : List (List UInt8)) (s : Shadow), s.AllAllowed (l.map (.appendExt x)) := by
    intro l
    induction l with
    | nil => intro s; trivial
    | cons b l ih => intro s; exact ⟨trivial, ih _⟩
  have hfold : ∀ (l : List (List UInt8)) (s : Shadow) (v : Option (List UInt8)), s x = some v →
      ∃ v', (l.map (Op.appendExt x)).foldl Shadow.step s x = some v' ∧ v'.getD [] = v.getD [] ++ l.flatten := by
    intro l
    induction l with
    | nil => intro s v hv; exact ⟨v, hv, by simp⟩
    | cons b l ih =>
      intro s v hv
      obtain ⟨v', h1, h2⟩ := ih (s.step (.appendExt x b)) (some (v.getD [] ++ b)) (by simp [Shadow.step, hv, Shadow.set])
      exact ⟨v', h1, by rw [h2]; simp⟩
  have main : ∀ c : Op, Shadow.init.Allowed c → Shadow.init.step c x = some first →
      ∃ w o, runAll (c :: rest.map (.appendExt x)) RawBytes.init = some w ∧
      w.obj x = some o ∧ o.size = (first.getD [] ++ rest.flatten).length ∧
      RawBytes.observe w o = some ((first.getD [] ++ rest.flatten).map some) := by
    intro c hc hx
    obtain ⟨w, hr, hw⟩ := C26_contents (c :: rest.map (.appendExt x)) ⟨hc, hall rest _⟩
    obtain ⟨v', h1, h2⟩ := hfold rest _ first hx
    simp only [List.foldl_cons] at hw
    obtain ⟨hn, ho⟩ := hw x
    cases hobj : w.obj x with
    | none => rw [hn.mp hobj] at h1; cases h1
    | some o =>
      obtain ⟨v, h3, h4, h5⟩ := ho o hobj
      rw [h1, Option.some.injEq] at h3; subst h3
      exact ⟨w, o, hr, hobj, by rw [h4, h2], by rw [h5, h2]⟩
  cases first with
  | none => exact main (.make x) trivial (by simp [Shadow.step, Shadow.init, Shadow.set])
  | some b => exact main (.makeExt x b) trivial (by simp [Shadow.step, Shadow.init, Shadow.set])

/-! ## C27 -/

/-- At every point of every allowed history, nothing undefined has happened, every live array belongs to exactly one
existing object, and no object points to a deleted array. -/
theorem C27_ownership (ops : List Op) (h : Shadow.init.AllAllowed ops) :
    ∃ w, runAll ops RawBytes.init = some w ∧
      (∀ p b, w.mem.block p = .live b → ∃ x o, w.obj x = some o ∧ o.content = some p ∧ ∀ y q, w.obj y = some q → q.content = some p → y = x) ∧
      (∀ x o p, w.obj x = some o → o.content = some p → p < w.mem.next ∧ w.mem.block p ≠ .freed) := by
  obtain ⟨w, hr, r⟩ := Rel.run ops Rel.init h
  refine ⟨w, hr, ?_, ?_⟩
  · intro p b hb
    obtain ⟨_, x, o, h1, h2⟩ := r.owned p b hb
    exact ⟨x, o, h1, h2, fun y q hy hq => r.alone y x q o p hy h1 hq h2⟩
  · intro x o p hx hp
    have hm := r.same x
    rw [hx] at hm
    rcases hm.some_some with ⟨_, rfl⟩ | ⟨b, p', _, rfl, h2, h3⟩
    · cases hp
    · simp only [Option.some.injEq] at hp; subst hp; exact ⟨h2, by rw [h3]; nofun⟩

/-- When every object has been destroyed, every array that was ever allocated has been deleted: no leak. -/
theorem C27_no_leak (ops : List Op) (h : Shadow.init.AllAllowed ops) (hgone : ∀ x, ops.foldl Shadow.step Shadow.init x = none) :
    ∃ w, runAll ops RawBytes.init = some w ∧ ∀ p, w.mem.block p = .freed := by
  obtain ⟨w, hr, r⟩ := Rel.run ops Rel.init h
  refine ⟨w, hr, fun p => ?_⟩
  cases hb : w.mem.block p with
  | freed => rfl
  | live b =>
    obtain ⟨_, x, o, h1, _⟩ := r.owned p b hb
    rw [(r.same x).none_iff.mpr (hgone x)] at h1; cases h1

/-- A refused construction (null content) leaves the world unchanged. -/
theorem C27_null_refused (w : World) (x n : Nat) (hx : w.obj x = none) :
    Op.run (.makeNull x n) w = .throw (.argumentNull (bs "content")) w := by
  simp only [Op.run, hx]

/-- Copying a RawBytes that holds an array by value, in any world an allowed history reaches, and destroying both is a
double delete; after destroying one, reading the other is reading deleted memory; and so is reading the copy after
appending to the original. -/
theorem C27_copy_double_delete {ops : List Op} (h : Shadow.init.AllAllowed ops) {x y : Nat} {b : List UInt8}
    (hy : ops.foldl Shadow.step Shadow.init y = some (some b)) (hx : ops.foldl Shadow.step Shadow.init x = none) (extra : List UInt8) :
    runAll (ops ++ [.copy x y, .destroy x, .destroy y]) RawBytes.init = none ∧
    (∃ w o, runAll (ops ++ [.copy x y, .destroy y]) RawBytes.init = some w ∧ w.obj x = some o ∧ RawBytes.observe w o = none) ∧
    (∃ w o, runAll (ops ++ [.copy x y, .appendExt y extra]) RawBytes.init = some w ∧ w.obj x = some o ∧ RawBytes.observe w o = none) := by
  obtain ⟨w, hr, r⟩ := Rel.run ops Rel.init h
  have hm := r.same y
  rw [hy] at hm
  cases hyo : w.obj y with
  | none => rw [hyo] at hm; exact absurd hm id
  | some o =>
  rw [hyo] at hm
  obtain ⟨p, rfl, hp, hb⟩ := hm
  have hxo := (r.same x).none_iff.mpr hx
  have hxy : x ≠ y := by rintro rfl; rw [hx] at hy; cases hy
  have happ : ∀ (l l2 : List Op) (w0 w1 : World), runAll l w0 = some w1 → runAll (l ++ l2) w0 = runAll l2 w1 := by
    intro l
    induction l with
    | nil => intro l2 w0 w1 h; simp only [runAll, Option.some.injEq] at h; subst h; rfl
    | cons c l ih =>
      intro l2 w0 w1 h
      simp only [runAll, List.cons_append] at h ⊢
      split at h
      · exact ih _ _ _ h
      · exact ih _ _ _ h
      · cases h
      · cases h
  refine ⟨?_, ?_, ?_⟩
  · rw [happ _ _ _ _ hr]
    simp [runAll, Op.run, hxo, hyo, RawBytes.bind, onMem, dtor, RawBytes.delete, hb, Mem.set, Ne.symm hxy]
  · rw [happ _ _ _ _ hr]
    refine ⟨⟨w.mem.set p .freed, fun z => if z = y then none else if z = x then some ⟨some p, b.length⟩ else w.obj z⟩, ⟨some p, b.length⟩, ?_, ?_, ?_⟩
    · simp [runAll, Op.run, hxo, hyo, RawBytes.bind, onMem, dtor, RawBytes.delete, hb, Ne.symm hxy]
    · simp [hxy]
    · simp [RawBytes.observe, RawBytes.read, Mem.set]
  · rw [happ _ _ _ _ hr]
    have e := append_run (yields_ext extra w.mem) hp hb
    refine ⟨⟨{ ((w.mem.set w.mem.next (.live ((b ++ extra).map some))).set p .freed) with next := w.mem.next + 1 },
      fun z => if z = y then some ⟨some w.mem.next, b.length + extra.length⟩ else if z = x then some ⟨some p, b.length⟩ else w.obj z⟩, ⟨some p, b.length⟩, ?_, ?_, ?_⟩
    · simp only [runAll, Op.run, hxo, hyo, RawBytes.bind, M.modify_run, M.bind_run, onMem, Ne.symm hxy, if_false, e]
    · simp [hxy]
    · simp [RawBytes.observe, RawBytes.read, Mem.set]

/-! ## Cases that meet the hypotheses -/
namespace Ex
/-- Two objects; the second is built from the first and appended to itself. -/
def rb : List Op := [.make 0, .appendExt 0 [1, 2], .appendExt 0 [], .makeFrom 1 0, .appendFrom 1 1 1 1, .makeNull 2 4]
theorem rb_allowed : Shadow.init.AllAllowed rb := by
  refine ⟨trivial, trivial, trivial, trivial, ?_, trivial, trivial⟩
  intro _ _
  exact ⟨[1, 2], rfl, by decide⟩
end Ex
example : ∃ w o, runAll Ex.rb RawBytes.init = some w ∧ w.obj 1 = some o ∧ o.size = 3 ∧ RawBytes.observe w o = some [some 1, some 2, some 2] := by
  obtain ⟨w, h, hw⟩ := C26_contents Ex.rb Ex.rb_allowed
  obtain ⟨hn, ho⟩ := hw 1
  have e : Ex.rb.foldl Shadow.step Shadow.init 1 = some (some [1, 2, 2]) := rfl
  cases hobj : w.obj 1 with
  | none => rw [hn.mp hobj] at e; cases e
  | some o =>
    obtain ⟨v, h1, h2, h3⟩ := ho o hobj
    rw [e, Option.some.injEq] at h1; subst h1
    exact ⟨w, o, h, hobj, h2, h3⟩
example : ∃ w o, runAll [.makeExt 4 [9], .appendExt 4 [], .appendExt 4 [7, 8]] RawBytes.init = some w ∧ w.obj 4 = some o ∧ o.size = 3 := by
  obtain ⟨w, o, h1, h2, h3, _⟩ := C26_concatenation (some [9]) [[], [7, 8]] 4
  exact ⟨w, o, h1, h2, h3⟩
example : ∃ w, runAll Ex.rb RawBytes.init = some w ∧ ∀ p b, w.mem.block p = .live b → ∃ x o, w.obj x = some o ∧ o.content = some p := by
  obtain ⟨w, h1, h2, _⟩ := C27_ownership Ex.rb Ex.rb_allowed
  exact ⟨w, h1, fun p b hb => by obtain ⟨x, o, h3, h4, _⟩ := h2 p b hb; exact ⟨x, o, h3, h4⟩⟩
example : ∃ w, runAll (Ex.rb ++ [.destroy 0, .destroy 1]) RawBytes.init = some w ∧ ∀ p, w.mem.block p = .freed := by
  refine C27_no_leak _ ⟨trivial, trivial, trivial, trivial, fun _ _ => ⟨[1, 2], rfl, by decide⟩, trivial, trivial, trivial, trivial⟩ ?_
  intro x
  match x with
  | 0 => rfl
  | 1 => rfl
  | n + 2 => rfl
example : Op.run (.makeNull 3 5) RawBytes.init = .throw (.argumentNull (bs "content")) RawBytes.init := C27_null_refused _ _ _ rfl
example : runAll (Ex.rb ++ [.copy 7 1, .destroy 7, .destroy 1]) RawBytes.init = none :=
  (C27_copy_double_delete Ex.rb_allowed (x := 7) (y := 1) (b := [1, 2, 2]) rfl rfl []).1

end LP
