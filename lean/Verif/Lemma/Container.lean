import Verif.Lemma.Path
import Verif.Spec.Container
/-! Operations on one dictionary or list datagram refine finite maps and sequences. -/
namespace LP
open Heap Tree

theorem sim_decl {s : DState} (inv : Inv s) (x : Nat) (ty : Ty) :
    ∃ s', Stmt.run (.decl x ty) s = .ok () s' ∧ Inv s' ∧ Holds s' x (Tree.ofType ty) := by
  refine ⟨_, rfl, ⟨inv.wf.alloc (nodeOk_ofType ty) (children_ofType ty), ?_⟩, ?_⟩
  · intro y a hy
    simp only at hy ⊢
    split at hy
    · simp only [Option.some.injEq] at hy; omega
    · have := inv.valid y a hy; omega
  · exact ⟨s.heap.next, by simp, rep_ofType ty _ _ (by simp) (by simp)⟩

/-- The dictionary document of a finite map. -/
def entryTree : Option Val → Tree
  | none => .empty
  | some v => .value v

theorem entryTree_inj {a b : Option Val} (h : entryTree a = entryTree b) : a = b := by
  cases a <;> cases b <;> simp_all [entryTree]

theorem dict_op {s : DState} (inv : Inv s) {x : Nat} {ds : List (Str × Tree)} {m : FMap} (ht : Holds s x (.dict ds))
    (hm : ∀ k, Dict.find k ds = (m k).map entryTree) (o : DictOp) :
    ∃ s' ds', Ends ((o.stmt x).run s) (o.spec m).2 s' ∧ Inv s' ∧ Holds s' x (.dict ds') ∧
      ∀ k, Dict.find k ds' = ((o.spec m).1 k).map entryTree := by
  have hsd := ht.sorted
  simp only [asDict] at hsd
  cases o with
  | put k v =>
    obtain ⟨s', he, i', hh, _⟩ := stmt_edit inv ht (c := .setVal x [.key k] v) rfl
    refine ⟨s', _, he, i', hh, ?_⟩
    intro j
    simp only [editAt, asDict, eSet, DictOp.spec, FMap.upd, Dict.find_insert]
    by_cases h : k = j
    · subst h; simp [entryTree]
    · simp [h, show ¬ j = k from fun e => h e.symm, hm]
  | get k =>
    obtain ⟨s', he, i', hh, _⟩ := stmt_edit inv ht (c := .touch x [.key k]) rfl
    refine ⟨s', _, ?_, i', hh, ?_⟩
    · exact he
    · intro j
      simp only [editAt, asDict, eTouch, DictOp.spec, Dict.find_insert]
      by_cases h : k = j
      · subst h
        simp only [if_true, hm]
        cases hk : m k with
        | none => simp [FMap.upd, entryTree]
        | some e => simp [hk]
      · rw [if_neg h, hm]
        split
        · simp [FMap.upd, show ¬ j = k from fun e => h e.symm]
        · rfl
  | remove k =>
    obtain ⟨s', he, i', hh, _⟩ := stmt_edit inv ht (c := .removeKey x [] k) rfl
    simp only [editAt, eRemoveKey, hm] at he hh
    simp only [DictOp.spec]
    cases hk : m k with
    | none =>
      simp only [hk, Option.map_none, Option.isSome_none, Bool.false_eq_true, if_false] at he hh
      refine ⟨s', ds, ?_, i', hh, ?_⟩
      · rw [if_pos rfl]; exact he
      · simpa using hm
    | some e =>
      simp only [hk, Option.map_some, Option.isSome_some, if_true] at he hh
      refine ⟨s', _, ?_, i', hh, ?_⟩
      · rw [if_neg (by simp)]; exact he
      · intro j
        rw [Dict.find_erase hsd]
        by_cases h : k = j
        · subst h; simp [FMap.upd]
        · simp [h, FMap.upd, show ¬ j = k from fun e => h e.symm, hm]
  | clear =>
    obtain ⟨s', he, i', hh, _⟩ := stmt_edit inv ht (c := .clear x []) rfl
    exact ⟨s', _, he, i', hh, by simp [DictOp.spec]⟩

theorem dict_ops {x : Nat} : ∀ (os : List DictOp) {s : DState} {ds : List (Str × Tree)} {m : FMap}, Inv s → Holds s x (.dict ds) →
    (∀ k, Dict.find k ds = (m k).map entryTree) →
    ∃ s' ds', Stmt.runAll (os.map (DictOp.stmt x)) s = some (s', (DictOp.specs os m).2) ∧ Inv s' ∧ Holds s' x (.dict ds') ∧
      ∀ k, Dict.find k ds' = ((DictOp.specs os m).1 k).map entryTree := by
  intro os
  induction os with
  | nil => intro s ds m inv ht hm; exact ⟨s, ds, rfl, inv, ht, hm⟩
  | cons o os ih =>
    intro s ds m inv ht hm
    obtain ⟨s1, ds1, he, i1, h1, hm1⟩ := dict_op inv ht hm o
    obtain ⟨s2, ds2, hr, i2, h2, hm2⟩ := ih i1 h1 hm1
    refine ⟨s2, ds2, ?_, i2, h2, hm2⟩
    simp only [List.map_cons, Stmt.runAll, DictOp.specs]
    simp only [Ends] at he
    cases hx : (o.spec m).2 <;> simp only [hx] at he <;> simp only [he, hr, Option.map_some]

theorem list_op {s : DState} (inv : Inv s) {x : Nat} {l : List Val} (ht : Holds s x (.list (l.map .value))) (o : ListOp) :
    ∃ s', Ends ((o.stmt x).run s) (o.spec l).2 s' ∧ Inv s' ∧ Holds s' x (.list ((o.spec l).1.map .value)) := by
  have hlen : (l.map Tree.value).length = l.length := by simp
  cases o with
  | add v =>
    obtain ⟨s', he, i', hh, _⟩ := stmt_edit inv ht (c := .addVal x [] v) rfl
    refine ⟨s', he, i', ?_⟩
    simpa [editAt, eAdd, asList, ListOp.spec] using hh
  | set i v =>
    obtain ⟨s', he, i', hh, _⟩ := stmt_edit inv ht (c := .setVal x [.idx i] v) rfl
    simp only [editAt, asList_list, ListOp.spec] at he hh ⊢
    by_cases hi : i.toNat < l.length
    · have : (l.map Tree.value)[i.toNat]? = some (.value l[i.toNat]) := by simp [List.getElem?_eq_getElem hi]
      simp only [this, eSet, if_pos hi] at he hh ⊢
      refine ⟨s', he, i', ?_⟩
      rw [List.set_eq_take_append_cons_drop, if_pos (by simpa using hi)] at hh
      simpa using hh
    · have : (l.map Tree.value)[i.toNat]? = none := by simp; omega
      simp only [this, if_neg hi] at he hh ⊢
      exact ⟨s', he, i', hh⟩
  | get i =>
    obtain ⟨s', he, i', hh, _⟩ := stmt_edit inv ht (c := .touch x [.idx i]) rfl
    simp only [editAt, asList_list, ListOp.spec] at he hh ⊢
    by_cases hi : i.toNat < l.length
    · have : (l.map Tree.value)[i.toNat]? = some (.value l[i.toNat]) := by simp [List.getElem?_eq_getElem hi]
      simp only [this, eTouch, if_pos hi] at he hh ⊢
      refine ⟨s', he, i', ?_⟩
      rwa [show (l.map Tree.value).set i.toNat (.value l[i.toNat]) = l.map Tree.value from by
        rw [← List.map_set, List.set_getElem_self]] at hh
    · have : (l.map Tree.value)[i.toNat]? = none := by simp; omega
      simp only [this, if_neg hi] at he hh ⊢
      exact ⟨s', he, i', hh⟩
  | remove i =>
    obtain ⟨s', he, i', hh, _⟩ := stmt_edit inv ht (c := .removeIdx x [] i) rfl
    simp only [editAt, eRemoveIdx, hlen, ListOp.spec] at he hh ⊢
    by_cases hi : i.toNat < l.length
    · simp only [if_pos hi] at he hh ⊢
      refine ⟨s', he, i', ?_⟩
      rw [List.eraseIdx_eq_take_drop_succ] at hh
      simpa using hh
    · simp only [if_neg hi] at he hh ⊢
      exact ⟨s', he, i', hh⟩
  | clear =>
    obtain ⟨s', he, i', hh, _⟩ := stmt_edit inv ht (c := .clear x []) rfl
    exact ⟨s', he, i', hh⟩

theorem list_ops {x : Nat} : ∀ (os : List ListOp) {s : DState} {l : List Val}, Inv s → Holds s x (.list (l.map .value)) →
    ∃ s', Stmt.runAll (os.map (ListOp.stmt x)) s = some (s', (ListOp.specs os l).2) ∧ Inv s' ∧
      Holds s' x (.list ((ListOp.specs os l).1.map .value)) := by
  intro os
  induction os with
  | nil => intro s l inv ht; exact ⟨s, rfl, inv, ht⟩
  | cons o os ih =>
    intro s l inv ht
    obtain ⟨s1, he, i1, h1⟩ := list_op inv ht o
    obtain ⟨s2, hr, i2, h2⟩ := ih i1 h1
    refine ⟨s2, ?_, i2, h2⟩
    simp only [List.map_cons, Stmt.runAll, ListOp.specs]
    simp only [Ends] at he
    cases hx : (o.spec l).2 <;> simp only [hx] at he <;> simp only [he, hr, Option.map_some]

end LP
