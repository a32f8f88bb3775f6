import Verif.Spec.Exceptions
import Verif.Lemma.Observe
import Verif.Lemma.Sim
/-! Why statements throw. -/
namespace LP
open Tree

/-- An edit at a position fails because an element on the way is missing, or because the edit itself fails there. -/
theorem editAt_fails (f : Edit) (e : Exn) : ∀ (p : List Sel) (t : Tree), (editAt p f t).2 = some e ↔
    (∃ p1 i r, p = p1 ++ .idx i :: r ∧ (editAt p1 eTouch t).2 = none ∧ (subAt p1 t).asList[i.toNat]? = none ∧
      e = .indexOutOfBounds i.toInt) ∨
    ((editAt p eTouch t).2 = none ∧ (f (subAt p t)).2 = some e) := by
  intro p
  induction p with
  | nil =>
    intro t
    constructor
    · intro h; exact Or.inr ⟨rfl, h⟩
    · rintro (⟨p1, i, r, h, -⟩ | ⟨-, h⟩)
      · simp at h
      · exact h
  | cons x p ih =>
    intro t
    cases x with
    | key k =>
      simp only [editAt, subAt, ih]
      constructor
      · rintro (⟨p1, i, r, rfl, h2, h3, h4⟩ | h)
        · exact Or.inl ⟨.key k :: p1, i, r, rfl, by simpa [editAt] using h2, by simpa [subAt] using h3, h4⟩
        · exact Or.inr h
      · rintro (⟨p1, i, r, h1, h2, h3, h4⟩ | h)
        · cases p1 with
          | nil => simp at h1
          | cons y p1 =>
            simp only [List.cons_append, List.cons.injEq] at h1
            obtain ⟨rfl, rfl⟩ := h1
            exact Or.inl ⟨p1, i, r, rfl, by simpa [editAt] using h2, by simpa [subAt] using h3, h4⟩
        · exact Or.inr h
    | idx j =>
      cases hj : t.asList[j.toNat]? with
      | none =>
        simp only [editAt, hj]
        constructor
        · intro h
          simp only [Option.some.injEq] at h
          exact Or.inl ⟨[], j, p, rfl, rfl, by simpa [subAt] using hj, h.symm⟩
        · rintro (⟨p1, i, r, h1, h2, h3, h4⟩ | ⟨h, -⟩)
          · cases p1 with
            | nil =>
              simp only [List.nil_append, List.cons.injEq, Sel.idx.injEq] at h1
              obtain ⟨rfl, rfl⟩ := h1; simp [h4]
            | cons y p1 =>
              simp only [List.cons_append, List.cons.injEq] at h1
              obtain ⟨rfl, rfl⟩ := h1
              simp [editAt, hj] at h2
          · cases h
      | some u =>
        simp only [editAt, hj, subAt, Option.getD_some, ih]
        constructor
        · rintro (⟨p1, i, r, rfl, h2, h3, h4⟩ | h)
          · exact Or.inl ⟨.idx j :: p1, i, r, rfl, by simpa [editAt, hj] using h2, by simpa [subAt, hj] using h3, h4⟩
          · exact Or.inr h
        · rintro (⟨p1, i, r, h1, h2, h3, h4⟩ | h)
          · cases p1 with
            | nil =>
              simp only [List.nil_append, List.cons.injEq, Sel.idx.injEq] at h1
              obtain ⟨rfl, rfl⟩ := h1
              simp [subAt, hj] at h3
            | cons y p1 =>
              simp only [List.cons_append, List.cons.injEq] at h1
              obtain ⟨rfl, rfl⟩ := h1
              exact Or.inl ⟨p1, i, r, rfl, by simpa [editAt, hj] using h2, by simpa [subAt, hj] using h3, h4⟩
          · exact Or.inr h

theorem sees_iff {s : DState} (inv : Inv s) {y : Nat} {t : Tree} (ht : Holds s y t) (p : List Sel) (q : Query) (a : Ans) :
    Sees s y p q a ↔ (editAt p eTouch t).2 = none ∧ ∀ pd po, (subAt p t).answer pd po q = .ok a := by
  unfold Sees
  constructor
  · intro h
    have h0 := h (fun _ => []) (fun _ _ => [])
    rw [ht.observeAt inv] at h0
    cases he : (editAt p eTouch t).2 with
    | some e => simp [he] at h0
    | none =>
      refine ⟨rfl, fun pd po => ?_⟩
      have := h pd po
      rw [ht.observeAt inv, he] at this
      simpa using this
  · rintro ⟨h1, h2⟩ pd po
    rw [ht.observeAt inv, h1]
    simp [h2 pd po]

theorem sees_type {s : DState} (inv : Inv s) {y : Nat} {t : Tree} (ht : Holds s y t) (p : List Sel) (ty : Ty) :
    Sees s y p .getType (.ty ty) ↔ (editAt p eTouch t).2 = none ∧ (subAt p t).kind = ty := by
  rw [sees_iff inv ht]
  simp [answer]

theorem noElement_of {s : DState} (inv : Inv s) {y : Nat} {t : Tree} (ht : Holds s y t) {p : List Sel} {i : BitVec 32}
    (h1 : (editAt p eTouch t).2 = none) (h2 : (subAt p t).asList[i.toNat]? = none) : NoElement s y p i := by
  cases hu : subAt p t with
  | list ts =>
    right
    refine ⟨(sees_type inv ht p .list).2 ⟨h1, by rw [hu]; rfl⟩, BitVec.ofNat 32 ts.length,
      (sees_iff inv ht p _ _).2 ⟨h1, fun pd po => by rw [hu]; rfl⟩, ?_⟩
    simp only [hu, asList, List.getElem?_eq_none_iff] at h2
    rw [BitVec.le_def, BitVec.toNat_ofNat]
    exact Nat.le_trans (Nat.mod_le _ _) h2
  | _ => exact Or.inl ⟨_, (sees_type inv ht p _).2 ⟨h1, rfl⟩, by rw [hu]; simp [kind]⟩

theorem noElement_iff {s : DState} (inv : Inv s) {y : Nat} {t : Tree} (ht : Holds s y t) {p : List Sel} {i : BitVec 32}
    (hc : (subAt p t).asList.length < 2 ^ 32) :
    NoElement s y p i ↔ (editAt p eTouch t).2 = none ∧ (subAt p t).asList[i.toNat]? = none := by
  constructor
  · rintro (⟨ty, h, hne⟩ | ⟨h1, n, h2, h3⟩)
    · obtain ⟨e1, e2⟩ := (sees_type inv ht p ty).1 h
      refine ⟨e1, ?_⟩
      cases hu : subAt p t <;> simp_all [asList, kind]
    · obtain ⟨e1, e2⟩ := (sees_type inv ht p _).1 h1
      obtain ⟨-, e3⟩ := (sees_iff inv ht p _ _).1 h2
      refine ⟨e1, ?_⟩
      cases hu : subAt p t with
      | list ts =>
        have := e3 (fun _ => []) (fun _ _ => [])
        simp only [hu, answer, Except.ok.injEq, Ans.count.injEq] at this
        subst this
        simp only [hu, asList] at hc
        rw [BitVec.le_def, BitVec.toNat_ofNat, Nat.mod_eq_of_lt hc] at h3
        simpa [asList] using h3
      | _ => simp [hu, kind] at e2
  · rintro ⟨h1, h2⟩; exact noElement_of inv ht h1 h2

theorem index_exn {e : Exn} {i : BitVec 32} (h : e.cls = .indexOutOfBounds) (h2 : e.getIndex = some i.toInt) : e = .indexOutOfBounds i.toInt := by
  cases e <;> simp_all [Exn.cls, Exn.getIndex]

theorem key_exn {e : Exn} {k : Str} (h : e.cls = .keyNotFound) (h2 : e.getKey = some k) : e = .keyNotFound k := by
  cases e <;> simp_all [Exn.cls, Exn.getKey]

theorem op_exn {e : Exn} (h : e.cls = .invalidOperation) : e = .invalidOperation := by
  cases e <;> simp_all [Exn.cls]

/-- Assignment from a datagram fails only in the chain. -/
theorem follow_assign {h : Heap} (w : WF h) {a c : Nat} {t : Tree} (hr : Rep h (fun x => x < h.next) t a) (hc : c < h.next) (p : List Sel)
    (m : Nat → M Heap Unit) (hm : ∀ h1 b, WF h1 → b < h1.next → c < h1.next → ∃ h2, m b h1 = .ok () h2) :
    (∀ e h', (follow p a >>= m) h = .throw e h' → (editAt p eTouch t).2 = some e) ∧
    (∀ e, (editAt p eTouch t).2 = some e → ∃ h', (follow p a >>= m) h = .throw e h') := by
  rcases follow_spec p w hr with ⟨b, h1, u, K, hf, hu, hru, g, hed, hl⟩ | ⟨e, h1, t1, hf, g, hed⟩
  · have hb : b < h1.next := Rep.mem (S := fun x => x < h1.next) hru
    obtain ⟨h2, hm2⟩ := hm h1 b g.wf hb (Nat.lt_of_lt_of_le hc g.mono)
    have he := hed eTouch
    simp only [M.bind_run, hf, hm2, he, eTouch]
    exact ⟨fun e h' h => by simp at h, fun e h => by simp at h⟩
  · have he := hed eTouch
    simp only [M.bind_run, hf, he]
    exact ⟨fun e' h' h => by simp at h; rw [h.1], fun e' h => by simp at h; exact ⟨h1, by rw [h]⟩⟩

/-- Why a statement throws, in terms of the document of the variable its chain starts from. -/
theorem stmt_throws {s : DState} (inv : Inv s) (c : Stmt) :
    (c.chain = none → ∀ e s', c.run s ≠ .throw e s') ∧
    ∀ y p, c.chain = some (y, p) →
      ((∃ x ∈ c.uses, s.env x = none) → ∀ e s', c.run s ≠ .throw e s') ∧
      ((∀ x ∈ c.uses, s.env x ≠ none) → ∃ t, Holds s y t ∧ ∀ e, (∃ s', c.run s = .throw e s') ↔
        (editAt p ((c.edit?.map fun r => r.2.2).getD eTouch) t).2 = some e) := by
  refine ⟨?_, ?_⟩
  · intro h e s' hr
    cases c <;> simp only [Stmt.chain, reduceCtorEq] at h
    · simp [Stmt.run, Cmd.bindVar, Datagram.make, Heap.alloc] at hr
    · simp [Stmt.run, Cmd.bindVar, Datagram.make, Heap.alloc] at hr
    · rename_i x y
      cases hy : s.env y with
      | none => simp [Stmt.run, Cmd.withVar, hy] at hr
      | some a =>
        obtain ⟨t, ht⟩ := rep_exists inv.wf (inv.valid y a hy)
        obtain ⟨h', hrun, -⟩ := copyCtor_spec inv.wf ht
        simp [Stmt.run, Cmd.withVar, hy, Cmd.bindVar, hrun] at hr
  · intro y p hch
    refine ⟨?_, ?_⟩
    · rintro ⟨x, hx, hn⟩ e s' hr
      cases c <;> simp only [Stmt.chain, reduceCtorEq] at hch <;> simp only [Stmt.uses, List.mem_cons, List.not_mem_nil, or_false] at hx
      case assignInto x' p' y' =>
        cases hz : s.env x' with
        | none => simp [Stmt.run, Cmd.withVar, hz] at hr
        | some a =>
          have : x = y' := by rcases hx with rfl | rfl; · simp [hz] at hn
                              · rfl
          subst this
          simp [Stmt.run, Cmd.withVar, hz, hn] at hr
      case assignFrom x' y' q' =>
        cases hz : s.env x' with
        | none => simp [Stmt.run, Cmd.withVar, hz] at hr
        | some a =>
          have : x = y' := by rcases hx with rfl | rfl; · simp [hz] at hn
                              · rfl
          subst this
          simp [Stmt.run, Cmd.withVar, hz, hn] at hr
      all_goals (subst hx; simp [Stmt.run, Cmd.withVar, hn] at hr)
    · intro hu
      have edit : ∀ F, c.edit? = some (y, p, F) → s.env y ≠ none → ∃ t, Holds s y t ∧ ∀ e, (∃ s', c.run s = .throw e s') ↔
          (editAt p ((c.edit?.map fun r => r.2.2).getD eTouch) t).2 = some e := by
        intro F hF hy
        obtain ⟨t, ht⟩ := inv.holds hy
        refine ⟨t, ht, fun e => ?_⟩
        obtain ⟨s', he, -⟩ := stmt_edit inv ht hF
        simp only [hF, Option.map_some, Option.getD_some]
        unfold Ends at he
        cases hx : (editAt p F t).2 with
        | none => simp [he, hx]
        | some e' => simp [he, hx]
      cases c <;> simp only [Stmt.chain, Option.some.injEq, Prod.mk.injEq, reduceCtorEq] at hch
      case assignInto x' p' y' =>
        obtain ⟨rfl, rfl⟩ := hch
        obtain ⟨a, ha⟩ := Option.ne_none_iff_exists'.mp (hu x' (by simp [Stmt.uses]))
        obtain ⟨d, hd⟩ := Option.ne_none_iff_exists'.mp (hu y' (by simp [Stmt.uses]))
        obtain ⟨t, ht⟩ := rep_exists inv.wf (inv.valid x' a ha)
        refine ⟨t, ⟨a, ha, ht⟩, fun e => ?_⟩
        have := follow_assign inv.wf ht (inv.valid y' d hd) p' (fun b => Datagram.assign b d) (by
          intro h1 b w1 hb hdn
          obtain ⟨u, hu⟩ := rep_exists w1 hb
          obtain ⟨v, hv⟩ := rep_exists w1 hdn
          obtain ⟨h2, hr2, -⟩ := assign_does w1 hu hv
          exact ⟨h2, hr2⟩)
        simp only [Stmt.edit?, Option.map_none, Option.getD_none, Stmt.run, Cmd.withVar, ha, hd, Cmd.onHeap]
        constructor
        · rintro ⟨s', hs'⟩
          split at hs' <;> simp only [reduceCtorEq, Res.throw.injEq] at hs'
          rename_i e' h' hh
          rw [← hs'.1]; exact this.1 _ _ hh
        · intro he
          obtain ⟨h', hh⟩ := this.2 e he
          exact ⟨⟨h', s.env⟩, by rw [hh]⟩
      case assignFrom x' y' q' =>
        obtain ⟨rfl, rfl⟩ := hch
        obtain ⟨a, ha⟩ := Option.ne_none_iff_exists'.mp (hu x' (by simp [Stmt.uses]))
        obtain ⟨d, hd⟩ := Option.ne_none_iff_exists'.mp (hu y' (by simp [Stmt.uses]))
        obtain ⟨t, ht⟩ := rep_exists inv.wf (inv.valid y' d hd)
        refine ⟨t, ⟨d, hd, ht⟩, fun e => ?_⟩
        have := follow_assign inv.wf ht (inv.valid x' a ha) q' (fun b => Datagram.assign a b) (by
          intro h1 b w1 hb hdn
          obtain ⟨u, hu⟩ := rep_exists w1 hb
          obtain ⟨v, hv⟩ := rep_exists w1 hdn
          obtain ⟨h2, hr2, -⟩ := assign_does w1 hv hu
          exact ⟨h2, hr2⟩)
        simp only [Stmt.edit?, Option.map_none, Option.getD_none, Stmt.run, Cmd.withVar, ha, hd, Cmd.onHeap]
        constructor
        · rintro ⟨s', hs'⟩
          split at hs' <;> simp only [reduceCtorEq, Res.throw.injEq] at hs'
          rename_i e' h' hh
          rw [← hs'.1]; exact this.1 _ _ hh
        · intro he
          obtain ⟨h', hh⟩ := this.2 e he
          exact ⟨⟨h', s.env⟩, by rw [hh]⟩
      all_goals (obtain ⟨rfl, rfl⟩ := hch; exact edit _ rfl (hu _ (by simp [Stmt.uses])))

end LP
