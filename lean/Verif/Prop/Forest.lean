import Verif.Lemma.Canon
/-! # C21, C22: programs over the Datagram API never build cycles or run into undefined behaviour -/
namespace LP
open Heap Tree

/-! ## C21 -/

/-- A program over the Datagram API runs to its end (each statement returns or throws one of the library's exceptions;
nothing is undefined and nothing recurses for ever) exactly when it deserialises no table that lacks a needed field. -/
theorem C21_programs_defined (prog : List Cmd) : (∃ s, Cmd.runAll prog Cmd.init = some s) ↔ ∀ c ∈ prog, c.Sound := by
  refine ⟨fun ⟨s, hr⟩ => runAll_sound prog hr, fun h => ?_⟩
  obtain ⟨s, hr, _⟩ := runAll_inv prog Inv.init h
  exact ⟨s, hr⟩

/-- No datagram leads to a cycle or to a null. -/
theorem C21_acyclic {s : DState} (hs : Reachable s) {x a : Nat} (hx : s.env x = some a) :
    ¬ LeadsToCycle s.heap a ∧ NoNulls s.heap a := by
  have w := hs.inv.wf
  have ha := hs.inv.valid x a hx
  refine ⟨?_, ?_⟩
  · rintro ⟨b, c, h1, h2, h3⟩
    have hb := descends_le w ha h1
    obtain ⟨c', hc, h4, h5⟩ := w.up _ hb.2 _ (kids_children h2)
    simp only [Option.some.injEq] at hc; subst hc
    have := descends_le w h5 h3
    omega
  · intro b hb
    have hb := descends_le w ha hb
    refine ⟨?_, ?_⟩
    · intro hn
      obtain ⟨c, hc, _⟩ := w.up _ hb.2 _ (kids_children hn)
      cases hc
    · intro hty
      rcases w.ok b hb.2 with h | ⟨v, h⟩ | ⟨ps, h⟩ | ⟨d, h, _⟩ <;> simp_all

/-- No sub-datagram is shared: an object is the child of at most one object, at one place. -/
theorem C21_unshared {s : DState} (hs : Reachable s) {a b c : Nat} (ha : a < s.heap.next) (hb : b < s.heap.next)
    (h1 : some c ∈ (s.heap.node a).kids) (h2 : some c ∈ (s.heap.node b).kids) : a = b ∧ (s.heap.node a).kids.Nodup := by
  have w := hs.inv.wf
  refine ⟨w.parent_unique ha hb (kids_children h1) (kids_children h2), ?_⟩
  have := w.nodup a ha
  unfold Node.children at this
  rw [List.nodup_append] at this
  unfold Node.kids
  split
  · exact this.1
  · exact this.2.1
  · exact List.nodup_nil

/-- Every reading call, comparison and copy made at any point of any program returns. -/
theorem C21_reads_return {s : DState} (hs : Reachable s) {x y : Nat} (hx : s.env x ≠ none) (hy : s.env y ≠ none) :
    (∀ pd po q, observe pd po q s x ≠ none) ∧ observeEq s x y ≠ none ∧ ∃ s', Cmd.run (.copyCtor y x) s = .ok () s' := by
  obtain ⟨t, ht⟩ := hs.inv.holds hx
  obtain ⟨u, hu⟩ := hs.inv.holds hy
  refine ⟨fun pd po q => by rw [ht.observe]; simp, ?_, ?_⟩
  · obtain ⟨r, h, _⟩ := ht.observeEq hu; rw [h]; simp
  · obtain ⟨a, ha, hr⟩ := ht
    obtain ⟨h1, hr1, _⟩ := copyCtor_spec hs.inv.wf hr
    exact ⟨⟨h1, fun z => if z = y then some s.heap.next else s.env z⟩, by simp only [Cmd.run, Cmd.withVar, ha, Cmd.bindVar, hr1]⟩

namespace Ex
/-- `d["k"] = d; e = d["k"]; e["l"] = d; d = e;` with `e` a handle kept on the part. -/
def prog4 : List Cmd := [.make 0 .dict, .indexKey 1 0 (bs "k"), .assign 1 0, .indexKey 2 1 (bs "l"), .assign 2 0, .assign 0 1, .addVal 1 (.int 3)]
end Ex
example : ∃ s, Cmd.runAll (Ex.prog4 ++ [.json 8 (fun _ => none) (bs "{"), .receive 9 (.mk 1 0 (some (bs "v")) 0 0 false none none none)]) Cmd.init = some s := by
  refine (C21_programs_defined _).mpr ?_
  intro c hc
  simp only [Ex.prog4, List.cons_append, List.nil_append, List.mem_cons, List.not_mem_nil, or_false] at hc
  rcases hc with rfl | rfl | rfl | rfl | rfl | rfl | rfl | rfl | rfl <;> first | trivial | nofun
example : ¬ ∃ s, Cmd.runAll [.make 0 .dict, .receive 9 (.mk 1 0 none 0 0 false none none none)] Cmd.init = some s := by
  rw [C21_programs_defined]
  intro h
  exact h (.receive 9 (.mk 1 0 none 0 0 false none none none)) (by simp) .str
example : ∃ s, Reachable s ∧ ∃ a, s.env 0 = some a ∧ ¬ LeadsToCycle s.heap a ∧ NoNulls s.heap a := by
  obtain ⟨s, hs, h⟩ := reach_eval Ex.prog4 (fun s => s.env 0) (some 0) (by decide +kernel)
  exact ⟨s, hs, 0, h, C21_acyclic hs h⟩
example : ∃ s, Reachable s ∧ ∃ a b : Nat, a < s.heap.next ∧ some b ∈ (s.heap.node a).kids ∧ (s.heap.node a).kids.Nodup := by
  obtain ⟨s, hs, h⟩ := reach_eval Ex.prog4 (fun s => decide (0 < s.heap.next) && (s.heap.node 0).kids.any Option.isSome) true (by decide +kernel)
  simp only [Bool.and_eq_true, decide_eq_true_eq, List.any_eq_true] at h
  obtain ⟨h0, p, hp, hsome⟩ := h
  obtain ⟨b, rfl⟩ := Option.isSome_iff_exists.mp hsome
  exact ⟨s, hs, 0, b, h0, hp, (C21_unshared hs h0 h0 hp hp).2⟩
example : ∃ s, Reachable s ∧ (∀ pd po q, observe pd po q s 0 ≠ none) ∧ observeEq s 0 1 ≠ none ∧ ∃ s', Cmd.run (.copyCtor 1 0) s = .ok () s' := by
  obtain ⟨s, hs, h⟩ := reach_eval Ex.prog4 (fun s => (s.env 0).isSome && (s.env 1).isSome) true (by decide +kernel)
  simp only [Bool.and_eq_true] at h
  exact ⟨s, hs, C21_reads_return hs (by intro e; simp [e] at h) (by intro e; simp [e] at h)⟩

/-! ## C22 -/

/-- `x = x[p1]...[pn]`: afterwards `x` shows what the part showed before. -/
theorem C22_part_to_whole {s : DState} (hs : Reachable s) {x : Nat} (hx : s.env x ≠ none) (p : List Sel)
    {s1 : DState} (hopen : Stmt.run (.touch x p) s = .ok () s1) :
    ∃ s', Stmt.run (.assignFrom x x p) s = .ok () s' ∧ ∀ pd po q, observe pd po q s' x = observeAt pd po q p s x := by
  obtain ⟨t, ht⟩ := hs.inv.holds hx
  have ht' := ht
  obtain ⟨a, ha, hr⟩ := ht
  rcases follow_spec p hs.inv.wf hr with ⟨b, h1, u, K, hf, hu, hru, g, hed, hl⟩ | ⟨e, h1, t1, hf, g, hed⟩
  · obtain ⟨h3, hr3, g3⟩ := assign_does g.wf g.rep hru
    simp only [eSet] at hr3 g3
    refine ⟨⟨h3, s.env⟩, ?_, ?_⟩
    · simp only [Stmt.run, Cmd.withVar, ha, Cmd.onHeap, M.bind_run, hf, hr3]
    · intro pd po q
      have hh : Holds ⟨h3, s.env⟩ x u := ⟨a, ha, g3.rep⟩
      rw [hh.observe, ht'.observeAt hs.inv, hed, hu]; rfl
  · exfalso
    simp only [Stmt.run, Cmd.withVar, ha, Cmd.onHeap, M.bind_run, hf] at hopen
    cases hopen

/-- `x[p1]...[pn] = x`: the part becomes a copy of the whole as it was once the part had been opened (a missing part is
first created Empty), and the rest of `x` is as it was then. No cycle appears (C21). -/
theorem C22_whole_to_part {s : DState} (hs : Reachable s) {x : Nat} (hx : s.env x ≠ none) (p : List Sel)
    {s1 : DState} (hopen : Stmt.run (.touch x p) s = .ok () s1) :
    ∃ s', Stmt.run (.assignInto x p x) s = .ok () s' ∧
      (∀ pd po q, observeAt pd po q p s' x = observe pd po q s1 x) ∧
      (∀ t1 t', Holds s1 x t1 → Holds s' x t' → ∀ r, Diverge p r → t'.lookup r = t1.lookup r) := by
  obtain ⟨t, ht⟩ := hs.inv.holds hx
  have ht' := ht
  obtain ⟨a, ha, hr⟩ := ht
  rcases follow_spec p hs.inv.wf hr with ⟨b, h1, u, K, hf, hu, hru, g, hed, hl⟩ | ⟨e, h1, t1, hf, g, hed⟩
  · have hs1 : s1 = ⟨h1, s.env⟩ := by
      simp only [Stmt.run, Cmd.withVar, ha, Cmd.onHeap, M.bind_run, hf, M.pure_run, Res.ok.injEq, true_and] at hopen
      exact hopen.symm
    subst hs1
    obtain ⟨h3, hr3, g3⟩ := assign_does g.wf hru g.rep
    simp only [eSet] at hr3 g3
    have g4 := hl _ _ g3
    have hh1 : Holds ⟨h1, s.env⟩ x (K u) := ⟨a, ha, g.rep⟩
    have hh : Holds ⟨h3, s.env⟩ x (K (K u)) := ⟨a, ha, g4.rep⟩
    have inv3 : Inv ⟨h3, s.env⟩ := ⟨g4.wf, fun y b hy => Nat.lt_of_lt_of_le (hs.inv.valid y b hy) g4.mono⟩
    have hset : ∀ v, (editAt p (eSet v) t) = (K v, none) := fun v => hed (eSet v)
    have key : ∀ (v : Tree) (p : List Sel) (t : Tree), (editAt p (eSet v) t).2 = none →
        subAt p (editAt p (eSet v) t).1 = v ∧ (editAt p eTouch (editAt p (eSet v) t).1).2 = none := by
      intro v p
      induction p with
      | nil => intro t _; exact ⟨rfl, rfl⟩
      | cons a p ih =>
        intro t hn
        cases a with
        | key k =>
          simp only [editAt] at hn
          obtain ⟨h1, h2⟩ := ih _ hn
          simp only [editAt, subAt, asDict_dict, Dict.find_insert_self, Option.getD_some]
          exact ⟨h1, h2⟩
        | idx i =>
          simp only [editAt] at hn ⊢
          cases h : t.asList[i.toNat]? with
          | none => simp [h] at hn
          | some u =>
            simp only [h] at hn
            obtain ⟨h1, h2⟩ := ih _ hn
            have hlt : i.toNat < t.asList.length := by rw [List.getElem?_eq_some_iff] at h; exact h.1
            simp only [editAt, subAt, asList_list, List.getElem?_set_self hlt, Option.getD_some]
            exact ⟨h1, h2⟩
    refine ⟨⟨h3, s.env⟩, ?_, ?_, ?_⟩
    · simp only [Stmt.run, Cmd.withVar, ha, Cmd.onHeap, M.bind_run, hf, hr3]
    · intro pd po q
      obtain ⟨k1, k2⟩ := key (K u) p t (by rw [hset])
      rw [hset] at k1 k2
      rw [hh.observeAt inv3, hh1.observe, k2, k1]
    · intro t1 t' e1 e2 r hd
      rw [← hh1.unique e1, ← hh.unique e2]
      have d1 := lookup_editAt_diverge (eSet (K u)) [] p r t hd
      have d2 := lookup_editAt_diverge eTouch [] p r t hd
      rw [List.nil_append, List.nil_append, hset] at d1
      rw [List.nil_append, List.nil_append, hed] at d2
      exact d1.trans d2.symm
  · exfalso
    simp only [Stmt.run, Cmd.withVar, ha, Cmd.onHeap, M.bind_run, hf] at hopen
    cases hopen

example : ∃ s s', Reachable s ∧ Stmt.run (.assignFrom 0 0 [.key (bs "k")]) s = .ok () s' ∧
    ∀ pd po q, observe pd po q s' 0 = observeAt pd po q [.key (bs "k")] s 0 := by
  obtain ⟨s, hs, h⟩ := reach_eval Ex.prog4 (fun s => s.env 0) (some 0) (by decide +kernel)
  have hx : s.env 0 ≠ none := by rw [h]; simp
  obtain ⟨t, ht⟩ := hs.inv.holds hx
  obtain ⟨s1, he, _⟩ := stmt_edit hs.inv ht (c := .touch 0 [.key (bs "k")]) rfl
  obtain ⟨s', h1, h2⟩ := C22_part_to_whole hs hx _ he
  exact ⟨s, s', hs, h1, h2⟩
example : ∃ s s1 s', Reachable s ∧ Stmt.run (.assignInto 0 [.key (bs "k"), .key (bs "new")] 0) s = .ok () s' ∧
    ∀ pd po q, observeAt pd po q [.key (bs "k"), .key (bs "new")] s' 0 = observe pd po q s1 0 := by
  obtain ⟨s, hs, h⟩ := reach_eval Ex.prog4 (fun s => s.env 0) (some 0) (by decide +kernel)
  have hx : s.env 0 ≠ none := by rw [h]; simp
  obtain ⟨t, ht⟩ := hs.inv.holds hx
  obtain ⟨s1, he, _⟩ := stmt_edit hs.inv ht (c := .touch 0 [.key (bs "k"), .key (bs "new")]) rfl
  obtain ⟨s', h1, h2, _⟩ := C22_whole_to_part hs hx _ he
  exact ⟨s, s1, s', hs, h1, h2⟩

end LP
