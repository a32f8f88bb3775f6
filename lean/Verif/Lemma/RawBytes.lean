import Verif.Spec.RawBytes
/-! Invariant of RawBytes histories. -/
namespace LP
namespace RawBytes

/-- The source yields `b` from `m` and from every memory that extends it. -/
def Src.Yields (src : Src) (m : Mem) (b : List UInt8) : Prop :=
  src.size = b.length ∧ ∀ m' : Mem, (∀ p, p < m.next → m'.block p = m.block p) → src.read m' = .ok (b.map some) m'

theorem yields_ext (b : List UInt8) (m : Mem) : (Src.ext b).Yields m b := ⟨rfl, fun _ _ => rfl⟩

theorem yields_ptr {m : Mem} {p off len : Nat} {c : List UInt8} (hp : p < m.next) (hb : m.block p = .live (c.map some)) (hl : off + len ≤ c.length) :
    (Src.ptr p off len).Yields m ((c.drop off).take len) := by
  refine ⟨by simp [Src.size]; omega, ?_⟩
  intro m' hm
  simp only [Src.read, RawBytes.read, hm p hp, hb, List.length_map, hl, if_true]
  simp [List.map_take, List.map_drop]

theorem mem_ext {m m' : Mem} (h1 : m.next = m'.next) (h2 : ∀ p, m.block p = m'.block p) : m = m' := by
  cases m; cases m'; simp only [Mem.mk.injEq] at *; exact ⟨h1, funext h2⟩

theorem fresh_run {m : Mem} {src : Src} {b : List UInt8} (hy : src.Yields m b) :
    (do let p ← new src.size; let b ← src.read; write p 0 b; pure (Obj.mk (some p) src.size) : M Mem Obj) m =
      .ok ⟨some m.next, b.length⟩ { (m.set m.next (.live (b.map some))) with next := m.next + 1 } := by
  have hr := hy.2 { (m.set m.next (.live (List.replicate src.size none))) with next := m.next + 1 } (by
    intro p hp; simp [Mem.set, Nat.ne_of_lt hp])
  simp only [M.bind_run, new, hr, write]
  simp only [Mem.set, if_true, List.length_map, List.length_replicate, hy.1, Nat.zero_add, Nat.le_refl, M.pure_run]
  congr 1
  refine mem_ext rfl (fun p => ?_)
  simp only
  split <;> simp

theorem ctor_run {m : Mem} {src : Src} {b : List UInt8} (hy : src.Yields m b) :
    ctor src m = .ok ⟨some m.next, b.length⟩ { (m.set m.next (.live (b.map some))) with next := m.next + 1 } := fresh_run hy

theorem append_null_run {m : Mem} {src : Src} {b : List UInt8} (hy : src.Yields m b) (n : Nat) :
    append ⟨none, n⟩ src m = .ok ⟨some m.next, b.length⟩ { (m.set m.next (.live (b.map some))) with next := m.next + 1 } := fresh_run hy

theorem append_run {m : Mem} {src : Src} {b ob : List UInt8} (hy : src.Yields m b) {c : Nat} (hc : c < m.next) (hb : m.block c = .live (ob.map some)) :
    append ⟨some c, ob.length⟩ src m = .ok ⟨some m.next, ob.length + b.length⟩
      { ((m.set m.next (.live ((ob ++ b).map some))).set c .freed) with next := m.next + 1 } := by
  have hcn : c ≠ m.next := Nat.ne_of_lt hc
  have hr := hy.2 { (m.set m.next (.live (ob.map some ++ List.replicate b.length none))) with next := m.next + 1 } (by
    intro p hp; simp [Mem.set, Nat.ne_of_lt hp])
  have hnew : new (ob.length + b.length) m = .ok m.next { (m.set m.next (.live (List.replicate (ob.length + b.length) none))) with next := m.next + 1 } := by
    rfl
  have hread : RawBytes.read c 0 ob.length { (m.set m.next (.live (List.replicate (ob.length + b.length) none))) with next := m.next + 1 } =
      .ok (ob.map some) { (m.set m.next (.live (List.replicate (ob.length + b.length) none))) with next := m.next + 1 } := by
    simp only [RawBytes.read, Mem.set, hcn, if_false, hb, List.length_map, Nat.zero_add, Nat.le_refl, if_true, List.drop_zero]
    rw [List.take_of_length_le (by simp)]
  have hw1 : write m.next 0 (ob.map some) { (m.set m.next (.live (List.replicate (ob.length + b.length) none))) with next := m.next + 1 } =
      .ok () { (m.set m.next (.live (ob.map some ++ List.replicate b.length none))) with next := m.next + 1 } := by
    simp only [write, Mem.set, if_true, List.length_map, List.length_replicate, Nat.zero_add, Nat.le_add_right]
    congr 1
    refine mem_ext rfl (fun p => ?_)
    simp only
    split <;> simp
  have hw2 : write m.next ob.length (b.map some) { (m.set m.next (.live (ob.map some ++ List.replicate b.length none))) with next := m.next + 1 } =
      .ok () { (m.set m.next (.live ((ob ++ b).map some))) with next := m.next + 1 } := by
    simp only [write, Mem.set, if_true, List.length_map, List.length_replicate, List.length_append, Nat.le_refl]
    congr 1
    refine mem_ext rfl (fun p => ?_)
    simp only
    split
    · congr 1
      rw [List.take_append_of_le_length (by simp), List.take_of_length_le (by simp), List.drop_eq_nil_of_le (by simp)]
      simp
    · rfl
  have hdel : delete c { (m.set m.next (.live ((ob ++ b).map some))) with next := m.next + 1 } =
      .ok () { ((m.set m.next (.live ((ob ++ b).map some))).set c .freed) with next := m.next + 1 } := by
    simp only [delete, Mem.set, hcn, if_false, hb]
  unfold append
  simp only [M.bind_run, hy.1, hnew, hread, hw1, hr, hw2, hdel, M.pure_run]

/-- Object `o` in memory `m` is the shadow value `v`. -/
def Match (m : Mem) : Option Obj → Option (Option (List UInt8)) → Prop
  | none, none => True
  | some o, some none => o = ⟨none, 0⟩
  | some o, some (some b) => ∃ p, o = ⟨some p, b.length⟩ ∧ p < m.next ∧ m.block p = .live (b.map some)
  | _, _ => False

/-- The invariant: objects are their shadows, own their arrays alone, and own every live array. -/
structure Rel (w : World) (s : Shadow) : Prop where
  same : ∀ x, Match w.mem (w.obj x) (s x)
  alone : ∀ x y o q p, w.obj x = some o → w.obj y = some q → o.content = some p → q.content = some p → x = y
  owned : ∀ p b, w.mem.block p = .live b → p < w.mem.next ∧ ∃ x o, w.obj x = some o ∧ o.content = some p

theorem Rel.init : Rel RawBytes.init Shadow.init := by
  refine ⟨fun x => trivial, ?_, ?_⟩
  · intro x y o q p h; cases h
  · intro p b h; cases h

theorem Match.none_iff {m : Mem} {o : Option Obj} {v : Option (Option (List UInt8))} (h : Match m o v) : o = none ↔ v = none := by
  cases o <;> cases v <;> simp_all [Match]

theorem Match.some_some {m : Mem} {o : Obj} {v : Option (Option (List UInt8))} (h : Match m (some o) v) :
    (v = some none ∧ o = ⟨none, 0⟩) ∨ ∃ b p, v = some (some b) ∧ o = ⟨some p, b.length⟩ ∧ p < m.next ∧ m.block p = .live (b.map some) := by
  cases v with
  | none => exact absurd h id
  | some v => cases v with
    | none => exact .inl ⟨rfl, h⟩
    | some b => obtain ⟨p, h1, h2, h3⟩ := h; exact .inr ⟨b, p, rfl, h1, h2, h3⟩

/-- Giving a name a newly allocated array. -/
theorem Rel.fresh {w : World} {s : Shadow} (r : Rel w s) (x : Nat) (b : List UInt8) (hx : ∀ o, w.obj x = some o → o.content = none) :
    Rel ⟨{ (w.mem.set w.mem.next (.live (b.map some))) with next := w.mem.next + 1 }, fun y => if y = x then some ⟨some w.mem.next, b.length⟩ else w.obj y⟩
      (s.set x (some (some b))) := by
  have hlt : ∀ y q p, w.obj y = some q → q.content = some p → p < w.mem.next := by
    intro y q p hy hq
    have := r.same y
    rw [hy] at this
    rcases this.some_some with ⟨_, h⟩ | ⟨c, p', _, h, h2, _⟩
    · rw [h] at hq; cases hq
    · rw [h] at hq; simp only [Option.some.injEq] at hq; omega
  refine ⟨?_, ?_, ?_⟩
  · intro y
    simp only [Shadow.set]
    split
    · exact ⟨_, rfl, by simp, by simp [Mem.set]⟩
    · have := r.same y
      cases hy : w.obj y with
      | none => rw [hy] at this; rw [this.none_iff.mp rfl]; trivial
      | some q =>
        rw [hy] at this
        rcases this.some_some with ⟨h1, h⟩ | ⟨c, p', h1, h, h2, h3⟩
        · rw [h1, h]; rfl
        · rw [h1, h]; exact ⟨p', rfl, by simp; omega, by simp [Mem.set, Nat.ne_of_lt h2, h3]⟩
  · intro y z o q p hy hz ho hq
    simp only at hy hz
    split at hy <;> split at hz
    · omega
    · simp only [Option.some.injEq] at hy; subst hy; simp only [Option.some.injEq] at ho
      have := hlt z q p hz hq; omega
    · simp only [Option.some.injEq] at hz; subst hz; simp only [Option.some.injEq] at hq
      have := hlt y o p hy ho; omega
    · exact r.alone y z o q p hy hz ho hq
  · intro p c hp
    simp only [Mem.set] at hp
    split at hp
    · rename_i e; subst e; exact ⟨by simp, x, ⟨some w.mem.next, b.length⟩, by simp, rfl⟩
    · obtain ⟨h1, y, q, h2, h3⟩ := r.owned p c hp
      refine ⟨by simp; omega, y, q, ?_, h3⟩
      have : y ≠ x := by rintro rfl; rw [hx q h2] at h3; cases h3
      simp [this, h2]

/-- Deleting the array a name owns, and the name with it. -/
theorem Rel.drop {w : World} {s : Shadow} (r : Rel w s) {x p n : Nat} (hx : w.obj x = some ⟨some p, n⟩) :
    Rel ⟨w.mem.set p .freed, fun y => if y = x then none else w.obj y⟩ (s.set x none) := by
  refine ⟨?_, ?_, ?_⟩
  · intro y
    simp only [Shadow.set]
    split
    · trivial
    · rename_i hyx
      have := r.same y
      cases hy : w.obj y with
      | none => rw [hy] at this; rw [this.none_iff.mp rfl]; trivial
      | some q =>
        rw [hy] at this
        rcases this.some_some with ⟨h1, h⟩ | ⟨c, p', h1, h, h2, h3⟩
        · rw [h1, h]; rfl
        · have hne : p' ≠ p := by
            intro e; subst e
            exact hyx (r.alone y x q _ p' hy hx (by rw [h]) rfl)
          rw [h1, h]; exact ⟨p', rfl, h2, by simp [Mem.set, hne, h3]⟩
  · intro y z o q p' hy hz ho hq
    simp only at hy hz
    split at hy
    · cases hy
    · split at hz
      · cases hz
      · exact r.alone y z o q p' hy hz ho hq
  · intro p' c hp
    simp only [Mem.set] at hp
    split at hp
    · cases hp
    · rename_i hne
      obtain ⟨h1, y, q, h2, h3⟩ := r.owned p' c hp
      refine ⟨h1, y, q, ?_, h3⟩
      have : y ≠ x := by
        rintro rfl; rw [hx, Option.some.injEq] at h2; subst h2
        simp only [Option.some.injEq] at h3; exact hne h3.symm
      simp [this, h2]

/-- Binding a name to nothing, or to the null object, when it owns nothing. -/
theorem Rel.rebind {w : World} {s : Shadow} (r : Rel w s) {x : Nat} (hx : ∀ o, w.obj x = some o → o.content = none) (b : Bool) :
    Rel ⟨w.mem, fun y => if y = x then (if b then some ⟨none, 0⟩ else none) else w.obj y⟩ (s.set x (if b then some none else none)) := by
  refine ⟨?_, ?_, ?_⟩
  · intro y
    simp only [Shadow.set]
    split
    · cases b
      · trivial
      · rfl
    · exact r.same y
  · intro y z o q p hy hz ho hq
    have hnb : ∀ o p, (if b then some (Obj.mk none 0) else none) = some o → o.content = some p → False := by
      intro o p h h'
      cases b
      · cases h
      · simp only [if_true, Option.some.injEq] at h; subst h; cases h'
    simp only at hy hz
    split at hy
    · exact absurd (hnb o p hy ho) id
    · split at hz
      · exact absurd (hnb q p hz hq) id
      · exact r.alone y z o q p hy hz ho hq
  · intro p c hp
    obtain ⟨h1, y, q, h2, h3⟩ := r.owned p c hp
    refine ⟨h1, y, q, ?_, h3⟩
    have : y ≠ x := by rintro rfl; rw [hx q h2] at h3; cases h3
    simp [this, h2]

/-- Appending to a name that exists. -/
theorem Rel.append {w : World} {s : Shadow} (r : Rel w s) {x : Nat} {o : Obj} (hx : w.obj x = some o) {src : Src} {b : List UInt8}
    (hy : src.Yields w.mem b) : ∃ w', (onMem (RawBytes.append o src) >>= fun o => bind x (some o)) w = .ok () w' ∧
      ∃ v, s x = some v ∧ Rel w' (s.set x (some (some (v.getD [] ++ b)))) := by
  have hm := r.same x
  rw [hx] at hm
  rcases hm.some_some with ⟨h1, rfl⟩ | ⟨ob, p, h1, rfl, h2, h3⟩
  · refine ⟨⟨{ (w.mem.set w.mem.next (.live (b.map some))) with next := w.mem.next + 1 },
      fun y => if y = x then some ⟨some w.mem.next, b.length⟩ else w.obj y⟩, ?_, none, h1, ?_⟩
    · simp only [M.bind_run, onMem, append_null_run hy, bind, M.modify_run]
    · exact r.fresh x b (by intro o h; rw [hx, Option.some.injEq] at h; subst h; rfl)
  · refine ⟨⟨{ ((w.mem.set w.mem.next (.live ((ob ++ b).map some))).set p .freed) with next := w.mem.next + 1 },
      fun y => if y = x then some ⟨some w.mem.next, ob.length + b.length⟩ else w.obj y⟩, ?_, some ob, h1, ?_⟩
    · simp only [M.bind_run, onMem, append_run hy h2 h3, bind, M.modify_run]
    · have r1 := r.drop hx
      have r2 := r1.fresh x (ob ++ b) (by simp)
      simp only [Option.getD_some]
      have e1 : (s.set x none).set x (some (some (ob ++ b))) = s.set x (some (some (ob ++ b))) := by
        funext y; simp only [Shadow.set]; split <;> rfl
      rw [e1] at r2
      have e2 : (World.mk { ((w.mem.set p .freed).set (w.mem.set p .freed).next (.live ((ob ++ b).map some))) with next := (w.mem.set p .freed).next + 1 }
          (fun y => if y = x then some ⟨some (w.mem.set p .freed).next, (ob ++ b).length⟩ else if y = x then none else w.obj y)) =
          ⟨{ ((w.mem.set w.mem.next (.live ((ob ++ b).map some))).set p .freed) with next := w.mem.next + 1 },
            fun y => if y = x then some ⟨some w.mem.next, ob.length + b.length⟩ else w.obj y⟩ := by
        congr 1
        · refine mem_ext rfl (fun q => ?_)
          simp only [Mem.set]
          by_cases hq : q = p
          · subst hq; simp [Nat.ne_of_lt h2]
          · simp [hq]
        · funext y; simp only [List.length_append]; split <;> rfl
      rw [e2] at r2
      exact r2

theorem Rel.step {w : World} {s : Shadow} (r : Rel w s) (c : Op) (hc : s.Allowed c) :
    ∃ w', (c.run w = .ok () w' ∨ ∃ e, c.run w = .throw e w') ∧ Rel w' (s.step c) := by
  have hn := fun x => (r.same x).none_iff
  cases c with
  | make x =>
    simp only [Op.run, Shadow.step]
    cases hx : w.obj x with
    | some o =>
      have : s x ≠ none := fun e => by rw [(hn x).mpr e] at hx; cases hx
      rw [if_neg this]; exact ⟨w, .inl rfl, r⟩
    | none =>
      rw [if_pos ((hn x).mp hx)]
      exact ⟨_, .inl rfl, r.rebind (x := x) (by simp [hx]) true⟩
  | makeNull x n =>
    simp only [Op.run, Shadow.step]
    cases w.obj x with
    | some o => exact ⟨w, .inl rfl, r⟩
    | none => exact ⟨w, .inr ⟨_, rfl⟩, r⟩
  | makeExt x b =>
    simp only [Op.run, Shadow.step]
    cases hx : w.obj x with
    | some o =>
      have : s x ≠ none := fun e => by rw [(hn x).mpr e] at hx; cases hx
      rw [if_neg this]; exact ⟨w, .inl rfl, r⟩
    | none =>
      rw [if_pos ((hn x).mp hx)]
      refine ⟨_, .inl ?_, r.fresh x b (by simp [hx])⟩
      simp only [M.bind_run, onMem, ctor_run (yields_ext b w.mem), bind, M.modify_run]
  | makeFrom x y =>
    simp only [Op.run, Shadow.step]
    cases hx : w.obj x with
    | some o =>
      obtain ⟨v, hv⟩ : ∃ v, s x = some v := Option.ne_none_iff_exists'.mp (fun e => by rw [(hn x).mpr e] at hx; cases hx)
      rw [hv]; exact ⟨w, .inl rfl, r⟩
    | none =>
      rw [(hn x).mp hx]
      cases hy : w.obj y with
      | none => rw [(hn y).mp hy]; exact ⟨w, .inl rfl, r⟩
      | some q =>
        have hm := r.same y
        rw [hy] at hm
        rcases hm.some_some with ⟨h1, rfl⟩ | ⟨ob, p, h1, rfl, h2, h3⟩
        · rw [h1]; exact ⟨w, .inr ⟨_, rfl⟩, r⟩
        · rw [h1]
          have hyl := yields_ptr (off := 0) (len := ob.length) h2 h3 (by simp)
          simp only [List.drop_zero, List.take_length] at hyl
          refine ⟨_, .inl ?_, r.fresh x ob (by simp [hx])⟩
          simp only [M.bind_run, onMem, ctor_run hyl, bind, M.modify_run]
  | appendExt x b =>
    simp only [Op.run, Shadow.step]
    cases hx : w.obj x with
    | none => rw [(hn x).mp hx]; exact ⟨w, .inl rfl, r⟩
    | some o =>
      obtain ⟨w', h1, v, h2, h3⟩ := r.append hx (yields_ext b w.mem)
      rw [h2]; exact ⟨w', .inl h1, h3⟩
  | appendFrom x y off len =>
    simp only [Op.run, Shadow.step]
    cases hx : w.obj x with
    | none => rw [(hn x).mp hx]; exact ⟨w, .inl rfl, r⟩
    | some o =>
      cases hy : w.obj y with
      | none =>
        rw [(hn y).mp hy]
        refine ⟨w, .inl rfl, ?_⟩
        split
        · rename_i h; cases h
        · exact r
      | some q =>
        obtain ⟨b, hb, hl⟩ := hc (fun e => by rw [(hn x).mpr e] at hx; cases hx) (fun e => by rw [(hn y).mpr e] at hy; cases hy)
        have hm := r.same y
        rw [hy, hb] at hm
        obtain ⟨p, rfl, h2, h3⟩ := hm
        obtain ⟨w', h1, v, h4, h5⟩ := r.append hx (yields_ptr h2 h3 hl)
        rw [hb, h4]
        exact ⟨w', .inl h1, h5⟩
  | copy x y => exact absurd hc id
  | destroy x =>
    simp only [Op.run, Shadow.step]
    cases hx : w.obj x with
    | none =>
      refine ⟨w, .inl rfl, ?_⟩
      have : s.set x none = s := by funext y; simp only [Shadow.set]; split
                                    · rename_i e; subst e; exact ((hn y).mp hx).symm
                                    · rfl
      rw [this]; exact r
    | some o =>
      have hm := r.same x
      rw [hx] at hm
      rcases hm.some_some with ⟨h1, rfl⟩ | ⟨ob, p, h1, rfl, h2, h3⟩
      · exact ⟨_, .inl rfl, r.rebind (x := x) (by intro o h; rw [hx, Option.some.injEq] at h; subst h; rfl) false⟩
      · refine ⟨_, .inl ?_, r.drop hx⟩
        simp only [M.bind_run, onMem, dtor, delete, h3, bind, M.modify_run]

theorem Rel.run : ∀ (ops : List Op) {w : World} {s : Shadow}, Rel w s → s.AllAllowed ops →
    ∃ w', runAll ops w = some w' ∧ Rel w' (ops.foldl Shadow.step s) := by
  intro ops
  induction ops with
  | nil => intro w s r _; exact ⟨w, rfl, r⟩
  | cons c cs ih =>
    intro w s r ⟨h1, h2⟩
    obtain ⟨w1, hr, r1⟩ := r.step c h1
    obtain ⟨w2, hr2, r2⟩ := ih r1 h2
    refine ⟨w2, ?_, r2⟩
    rcases hr with hr | ⟨e, hr⟩ <;> simp only [runAll, hr, hr2]

theorem Rel.observe {w : World} {s : Shadow} (r : Rel w s) {x : Nat} {o : Obj} (hx : w.obj x = some o) :
    ∃ v, s x = some v ∧ o.size = (v.getD []).length ∧ observe w o = some ((v.getD []).map some) := by
  have hm := r.same x
  rw [hx] at hm
  rcases hm.some_some with ⟨h1, rfl⟩ | ⟨ob, p, h1, rfl, h2, h3⟩
  · exact ⟨none, h1, rfl, rfl⟩
  · refine ⟨some ob, h1, rfl, ?_⟩
    simp only [RawBytes.observe, RawBytes.read, h3, List.length_map, Nat.zero_add, Nat.le_refl, if_true, List.drop_zero, Option.getD_some]
    rw [List.take_of_length_le (by simp)]

end RawBytes
end LP
