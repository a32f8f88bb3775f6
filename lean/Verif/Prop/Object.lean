import Verif.Lemma.Container
/-! # C07–C11: one datagram object -/
namespace LP
open Heap Tree

/-! ## C07 -/

/-- A datagram has exactly one kind and answers reading calls of that kind only. -/
theorem C07_one_kind {s : DState} (hs : Reachable s) {x : Nat} (hx : s.env x ≠ none) (pd : Dbl → Str) (po : Nat → Nat → Str) :
    ∃ ty, observe pd po .getType s x = some (.ok (.ty ty)) ∧
      observe pd po .isEmpty s x = some (.ok (.bool (decide (ty = .empty)))) ∧
      (∀ k, observe pd po (.keyExists k) s x = some (.ok (.bool true)) → ty = .dict) ∧
      (∀ k, ∃ b, observe pd po (.keyExists k) s x = some (.ok (.bool b))) ∧
      ((∃ n, observe pd po .getCount s x = some (.ok (.count n))) ↔ ty = .list ∨ ty = .dict) ∧
      (∀ T v, observe pd po (.getVal T) s x = some (.ok (.val v)) → ty = .value ∧ v.ty = T) ∧
      (ty = .value → ∃ T v, observe pd po (.getVal T) s x = some (.ok (.val v))) := by
  obtain ⟨t, ht⟩ := hs.inv.holds hx
  refine ⟨t.kind, ?_⟩
  simp only [ht.observe]
  cases t <;> simp [answer, kind]
  case value v =>
    refine ⟨?_, v.ty, v, by simp⟩
    intro T w; split
    · rename_i h; simp only [Except.ok.injEq, Ans.val.injEq]; rintro rfl; exact h
    · simp

/-- Every object of the graph keeps content in its current representation only. -/
theorem C07_only_active_content {s : DState} (hs : Reachable s) {a : Nat} (ha : a < s.heap.next) :
    ((s.heap.node a).ty ≠ .dict → (s.heap.node a).dict = []) ∧ ((s.heap.node a).ty ≠ .list → (s.heap.node a).list = []) ∧
      ((s.heap.node a).ty = .value ↔ (s.heap.node a).value ≠ none) := by
  rcases hs.inv.wf.ok a ha with h | ⟨v, h⟩ | ⟨ps, h⟩ | ⟨d, h, _⟩ <;> simp [h]

/-- Assigning a value discards whatever was there: the result cannot be told from that of the same assignment made in
any other program to any other datagram. -/
theorem C07_assign_forgets {s1 s2 : DState} (h1 : Reachable s1) (h2 : Reachable s2) {x1 x2 : Nat} (hx1 : s1.env x1 ≠ none)
    (hx2 : s2.env x2 ≠ none) (v : Val) :
    ∃ s1' s2', Stmt.run (.setVal x1 [] v) s1 = .ok () s1' ∧ Stmt.run (.setVal x2 [] v) s2 = .ok () s2' ∧
      ∀ pd po q p, observeAt pd po q p s1' x1 = observeAt pd po q p s2' x2 := by
  obtain ⟨t1, ht1⟩ := h1.inv.holds hx1
  obtain ⟨t2, ht2⟩ := h2.inv.holds hx2
  obtain ⟨s1', he1, i1, hh1, _⟩ := stmt_edit h1.inv ht1 (c := .setVal x1 [] v) rfl
  obtain ⟨s2', he2, i2, hh2, _⟩ := stmt_edit h2.inv ht2 (c := .setVal x2 [] v) rfl
  refine ⟨s1', s2', he1, he2, fun pd po q p => ?_⟩
  rw [hh1.observeAt i1, hh2.observeAt i2]; rfl

/-- Adding to a datagram that is not a list discards whatever was there, too. -/
theorem C07_add_forgets {s : DState} (hs : Reachable s) {x : Nat} {pd : Dbl → Str} {po : Nat → Nat → Str} {ty : Ty}
    (hx : observe pd po .getType s x = some (.ok (.ty ty))) (hty : ty ≠ .list) (v : Val) :
    ∃ s', Stmt.run (.addVal x [] v) s = .ok () s' ∧ observe pd po .getType s' x = some (.ok (.ty .list)) ∧
      observe pd po .getCount s' x = some (.ok (.count 1)) ∧ observeAt pd po (.getVal v.ty) [.idx 0] s' x = some (.ok (.val v)) := by
  have hsc : s.env x ≠ none := by intro e; simp [observe, e] at hx
  obtain ⟨t, ht⟩ := hs.inv.holds hsc
  rw [ht.observe] at hx
  simp only [answer, Option.some.injEq, Except.ok.injEq, Ans.ty.injEq] at hx
  obtain ⟨s', he, i', hh, _⟩ := stmt_edit hs.inv ht (c := .addVal x [] v) rfl
  have hl : t.asList = [] := by cases t <;> simp_all [kind, asList]
  simp only [editAt, eAdd, hl, List.nil_append] at he hh
  refine ⟨s', he, ?_, ?_, ?_⟩
  · rw [hh.observe]; rfl
  · rw [hh.observe]; rfl
  · rw [hh.observeAt i']
    simp [editAt, subAt, asList, answer, eTouch]

/-! ## C10 -/

/-- Remove, Clear and GetCount on a datagram of the wrong kind throw InvalidOperationException; nothing observable changes. -/
theorem C10_wrong_kind_throws {s : DState} (hs : Reachable s) {x : Nat} {pd : Dbl → Str} {po : Nat → Nat → Str} {ty : Ty}
    (hx : observe pd po .getType s x = some (.ok (.ty ty))) :
    (ty ≠ .list → ty ≠ .dict → observe pd po .getCount s x = some (.error .invalidOperation)) ∧
    ∀ c : Stmt, ((∃ k, c = .removeKey x [] k ∧ ty ≠ .dict) ∨ (∃ i, c = .removeIdx x [] i ∧ ty ≠ .list) ∨
        (c = .clear x [] ∧ ty ≠ .list ∧ ty ≠ .dict)) →
      ∃ s', Stmt.run c s = .throw .invalidOperation s' ∧
        ∀ pd po q p, observeAt pd po q p s' x = observeAt pd po q p s x := by
  have hsc : s.env x ≠ none := by intro e; simp [observe, e] at hx
  obtain ⟨t, ht⟩ := hs.inv.holds hsc
  rw [ht.observe] at hx
  simp only [answer, Option.some.injEq, Except.ok.injEq, Ans.ty.injEq] at hx
  subst hx
  refine ⟨?_, ?_⟩
  · intro h1 h2; rw [ht.observe]; cases t <;> simp_all [kind, answer]
  · have fin : ∀ (c : Stmt) (F : Edit), c.edit? = some (x, [], F) → F t = (t, some .invalidOperation) →
        ∃ s', Stmt.run c s = .throw .invalidOperation s' ∧ ∀ pd po q p, observeAt pd po q p s' x = observeAt pd po q p s x := by
      intro c F hc hF
      obtain ⟨s', he, i', hh, _⟩ := stmt_edit hs.inv ht hc
      simp only [editAt, hF] at he hh
      exact ⟨s', he, fun pd po q p => by rw [hh.observeAt i', ht.observeAt hs.inv]⟩
    rintro c (⟨k, rfl, h⟩ | ⟨i, rfl, h⟩ | ⟨rfl, h, h'⟩)
    · exact fin _ _ rfl (by cases t <;> simp_all [kind, eRemoveKey])
    · exact fin _ _ rfl (by cases t <;> simp_all [kind, eRemoveIdx])
    · exact fin _ _ rfl (by cases t <;> simp_all [kind, eClear])

/-- Indexing a datagram that is not a dictionary by a key discards its content: it becomes a dictionary whose only entry
is the (Empty) one asked for. -/
theorem C10_key_index_converts {s : DState} (hs : Reachable s) {x : Nat} {pd : Dbl → Str} {po : Nat → Nat → Str} {ty : Ty}
    (hx : observe pd po .getType s x = some (.ok (.ty ty))) (hty : ty ≠ .dict) (k : Str) :
    ∃ s', Stmt.run (.touch x [.key k]) s = .ok () s' ∧ observe pd po .getType s' x = some (.ok (.ty .dict)) ∧
      observe pd po .getCount s' x = some (.ok (.count 1)) ∧
      (∀ j, observe pd po (.keyExists j) s' x = some (.ok (.bool (decide (j = k))))) ∧
      observeAt pd po .isEmpty [.key k] s' x = some (.ok (.bool true)) := by
  have hsc : s.env x ≠ none := by intro e; simp [observe, e] at hx
  obtain ⟨t, ht⟩ := hs.inv.holds hsc
  rw [ht.observe] at hx
  simp only [answer, Option.some.injEq, Except.ok.injEq, Ans.ty.injEq] at hx
  obtain ⟨s', he, i', hh, _⟩ := stmt_edit hs.inv ht (c := .touch x [.key k]) rfl
  have hd : t.asDict = [] := by cases t <;> simp_all [kind, asDict]
  simp only [editAt, eTouch, hd, Dict.find_nil, Option.getD_none, Dict.insert] at he hh
  refine ⟨s', he, ?_, ?_, ?_, ?_⟩
  · rw [hh.observe]; rfl
  · rw [hh.observe]; rfl
  · intro j; rw [hh.observe]; simp only [answer, Dict.find]
    by_cases h : j = k
    · subst h; simp
    · simp [h, show ¬ k = j from fun e => h e.symm]
  · rw [hh.observeAt i']
    simp [editAt, subAt, asDict, answer, eTouch, Dict.find]

/-- Indexing a datagram that is not a list by a number discards its content, turns it into an empty list and throws. -/
theorem C10_number_index_destroys {s : DState} (hs : Reachable s) {x : Nat} {pd : Dbl → Str} {po : Nat → Nat → Str} {ty : Ty}
    (hx : observe pd po .getType s x = some (.ok (.ty ty))) (hty : ty ≠ .list) (i : BitVec 32) :
    ∃ s', Stmt.run (.touch x [.idx i]) s = .throw (.indexOutOfBounds i.toInt) s' ∧
      observe pd po .getType s' x = some (.ok (.ty .list)) ∧ observe pd po .getCount s' x = some (.ok (.count 0)) := by
  have hsc : s.env x ≠ none := by intro e; simp [observe, e] at hx
  obtain ⟨t, ht⟩ := hs.inv.holds hsc
  rw [ht.observe] at hx
  simp only [answer, Option.some.injEq, Except.ok.injEq, Ans.ty.injEq] at hx
  obtain ⟨s', he, i', hh, _⟩ := stmt_edit hs.inv ht (c := .touch x [.idx i]) rfl
  have hl : t.asList = [] := by cases t <;> simp_all [kind, asList]
  simp only [editAt, hl, List.getElem?_nil] at he hh
  exact ⟨s', he, by rw [hh.observe]; rfl, by rw [hh.observe]; rfl⟩

/-! ## C08 -/

/-- A dictionary datagram is a finite map: whatever is done to it, the exceptions and all reads are those of the map. -/
theorem C08_finite_map {s : DState} (hs : Reachable s) (x : Nat) (os : List DictOp) :
    ∃ s', Stmt.runAll (.decl x .dict :: os.map (DictOp.stmt x)) s = some (s', none :: (DictOp.specs os (fun _ => none)).2) ∧
      ∀ m, m = (DictOp.specs os (fun _ => none)).1 → ∀ pd po,
        (∀ k, observe pd po (.keyExists k) s' x = some (.ok (.bool (m k).isSome))) ∧
        (∀ k v, m k = some (some v) → observeAt pd po (.getVal v.ty) [.key k] s' x = some (.ok (.val v))) ∧
        (∀ k, m k = some none → observeAt pd po .isEmpty [.key k] s' x = some (.ok (.bool true))) ∧
        (∃ keys : List Str, keys.Nodup ∧ (∀ k, k ∈ keys ↔ m k ≠ none) ∧
          observe pd po .getCount s' x = some (.ok (.count (BitVec.ofNat 32 keys.length)))) := by
  obtain ⟨s0, hr0, i0, h0⟩ := sim_decl hs.inv x .dict
  obtain ⟨s', ds, hr, i', hh, hm⟩ := dict_ops os (m := fun _ => none) i0 h0 (by simp)
  refine ⟨s', by simp only [Stmt.runAll, hr0, hr, Option.map_some], ?_⟩
  rintro m rfl pd po
  refine ⟨?_, ?_, ?_, ?_⟩
  · intro k; rw [hh.observe]; simp [answer, hm]
  · intro k v hk; rw [hh.observeAt i']; simp [editAt, subAt, asDict, hm, hk, entryTree, eTouch, answer]
  · intro k hk; rw [hh.observeAt i']; simp [editAt, subAt, asDict, hm, hk, entryTree, eTouch, answer]
  · have hsd := hh.sorted
    simp only [asDict] at hsd
    refine ⟨ds.map Prod.fst, Dict.nodup_keys hsd, ?_, ?_⟩
    · intro k
      have h1 := hm k
      constructor
      · intro hk
        obtain ⟨⟨k', t⟩, hmem, rfl⟩ := List.mem_map.mp hk
        rw [Dict.mem_find hsd hmem] at h1
        intro h2; simp [h2] at h1
      · intro hk
        cases hf : Dict.find k ds with
        | none => rw [hf] at h1; cases h2 : ((DictOp.specs os fun _ => none).1 k) <;> simp_all
        | some t => exact List.mem_map.mpr ⟨(k, t), Dict.find_some_mem hf, rfl⟩
    · rw [hh.observe]; simp [answer]

/-! ## C09 -/

/-- A list datagram is a sequence: whatever is done to it, the exceptions and all reads are those of the sequence. -/
theorem C09_sequence {s : DState} (hs : Reachable s) (x : Nat) (os : List ListOp) :
    ∃ s', Stmt.runAll (.decl x .list :: os.map (ListOp.stmt x)) s = some (s', none :: (ListOp.specs os []).2) ∧
      ∀ l, l = (ListOp.specs os []).1 → ∀ pd po,
        observe pd po .getCount s' x = some (.ok (.count (BitVec.ofNat 32 l.length))) ∧
        (∀ (i : BitVec 32) v, l[i.toNat]? = some v → observeAt pd po (.getVal v.ty) [.idx i] s' x = some (.ok (.val v))) ∧
        (∀ (i : BitVec 32), l.length ≤ i.toNat → ∀ q, observeAt pd po q [.idx i] s' x = some (.error (.indexOutOfBounds i.toInt))) := by
  obtain ⟨s0, hr0, i0, h0⟩ := sim_decl hs.inv x .list
  obtain ⟨s', hr, i', hh⟩ := list_ops os (l := []) i0 h0
  refine ⟨s', by simp only [Stmt.runAll, hr0, hr, Option.map_some], ?_⟩
  rintro l rfl pd po
  refine ⟨?_, ?_, ?_⟩
  · rw [hh.observe]; simp [answer]
  · intro i v hi
    rw [hh.observeAt i']
    simp [editAt, subAt, asList, hi, eTouch, answer]
  · intro i hi q
    rw [hh.observeAt i']
    have : (List.map Tree.value (ListOp.specs os []).1)[i.toNat]? = none := by simp; exact hi
    simp [editAt, asList, this]

/-! ## C11 -/

/-- GetCount is the number of elements or entries modulo 2^32. -/
theorem C11_count {s : DState} {x : Nat} {pd : Dbl → Str} {po : Nat → Nat → Str} {t : Tree} (ht : Holds s x t) :
    (∀ ts, t = .list ts → observe pd po .getCount s x = some (.ok (.count (BitVec.ofNat 32 ts.length)))) ∧
    (∀ ds, t = .dict ds → (ds.map Prod.fst).Nodup ∧ observe pd po .getCount s x = some (.ok (.count (BitVec.ofNat 32 ds.length)))) := by
  refine ⟨?_, ?_⟩
  · rintro ts rfl; rw [ht.observe]; rfl
  · rintro ds rfl
    have := ht.sorted
    simp only [asDict] at this
    exact ⟨Dict.nodup_keys this, by rw [ht.observe]; rfl⟩

/-- Adding `n` elements to a fresh list gives a count of `n` modulo 2^32; so exactly `n` below 2^32, and 0 at 2^32. -/
theorem C11_count_after_adds {s : DState} (hs : Reachable s) (x : Nat) (vs : List Val) (pd : Dbl → Str) (po : Nat → Nat → Str) :
    ∃ s', Stmt.runAll (.decl x .list :: vs.map (fun v => .addVal x [] v)) s = some (s', none :: vs.map fun _ => none) ∧
      ∃ n, observe pd po .getCount s' x = some (.ok (.count n)) ∧ n.toNat = vs.length % 2 ^ 32 := by
  obtain ⟨s', hr, h⟩ := C09_sequence hs x (vs.map .add)
  have hl : ∀ l, ListOp.specs (vs.map .add) l = (l ++ vs, vs.map fun _ => none) := by
    clear h hr
    induction vs with
    | nil => intro l; simp [ListOp.specs]
    | cons v vs ih => intro l; simp [ListOp.specs, ListOp.spec, ih]
  rw [hl] at hr h
  refine ⟨s', ?_, _, (h _ rfl pd po).1, by simp⟩
  simpa [Function.comp_def, ListOp.stmt] using hr

/-! ## Cases that meet the hypotheses -/
namespace Ex
/-- Variable 0 holds `{"k": 5, "l": [true]}`, variables 1 and 2 are handles on its parts. -/
def prog2 : List Cmd := [.make 0 .empty, .indexKey 1 0 (bs "k"), .assignVal 1 (.int 5), .indexKey 2 0 (bs "l"), .addVal 2 (.bool true)]
theorem state2 (pd : Dbl → Str) (po : Nat → Nat → Str) : ∃ s, Reachable s ∧ observe pd po .getType s 0 = some (.ok (.ty .dict)) ∧
    observe pd po .getType s 1 = some (.ok (.ty .value)) ∧ observe pd po .getType s 2 = some (.ok (.ty .list)) := by
  obtain ⟨s, hr, _⟩ := runAll_inv prog2 Inv.init (by simp [prog2, Cmd.Sound])
  have h0 : (Cmd.runAll prog2 Cmd.init).map (fun s => observe pd po .getType s 0) = some (some (.ok (.ty .dict))) := rfl
  have h1 : (Cmd.runAll prog2 Cmd.init).map (fun s => observe pd po .getType s 1) = some (some (.ok (.ty .value))) := rfl
  have h2 : (Cmd.runAll prog2 Cmd.init).map (fun s => observe pd po .getType s 2) = some (some (.ok (.ty .list))) := rfl
  rw [hr] at h0 h1 h2
  simp only [Option.map_some, Option.some.injEq] at h0 h1 h2
  exact ⟨s, ⟨_, hr⟩, h0, h1, h2⟩
/-- No text for a double; the examples contain none (Data.h:46-49). -/
def pd0 : Dbl → Str := fun _ => []
/-- No text for a pointer; the examples contain none (Data.h:46-49). -/
def po0 : Nat → Nat → Str := fun _ _ => []
theorem scope {s : DState} {x : Nat} {ty : Ty} (h : observe pd0 po0 .getType s x = some (.ok (.ty ty))) : s.env x ≠ none := by
  intro e; simp [observe, e] at h
end Ex

-- C07 and C10 on the dictionary 0 and on the handle 1 on its value entry
example : ∃ s, Reachable s ∧ s.env 0 ≠ none ∧ s.env 1 ≠ none ∧ ∃ s1' s2', Stmt.run (.setVal 0 [] (.int 1)) s = .ok () s1' ∧
    Stmt.run (.setVal 1 [] (.int 1)) s = .ok () s2' ∧ ∀ pd po q p, observeAt pd po q p s1' 0 = observeAt pd po q p s2' 1 := by
  obtain ⟨s, hs, h0, h1, _⟩ := Ex.state2 Ex.pd0 Ex.po0
  exact ⟨s, hs, Ex.scope h0, Ex.scope h1, C07_assign_forgets hs hs (Ex.scope h0) (Ex.scope h1) (.int 1)⟩
example : ∃ s, Reachable s ∧ ∃ ty, observe Ex.pd0 Ex.po0 .getType s 1 = some (.ok (.ty ty)) := by
  obtain ⟨s, hs, _, h1, _⟩ := Ex.state2 Ex.pd0 Ex.po0
  obtain ⟨ty, h, _⟩ := C07_one_kind hs (Ex.scope h1) Ex.pd0 Ex.po0
  exact ⟨s, hs, ty, h⟩
example : ∃ s, Reachable s ∧ ∃ a, a < s.heap.next ∧ ((s.heap.node a).ty = .value ↔ (s.heap.node a).value ≠ none) := by
  obtain ⟨s, hs, _, h1, _⟩ := Ex.state2 Ex.pd0 Ex.po0
  obtain ⟨a, ha⟩ := Option.ne_none_iff_exists'.mp (Ex.scope h1)
  exact ⟨s, hs, a, hs.inv.valid _ _ ha, (C07_only_active_content hs (hs.inv.valid _ _ ha)).2.2⟩
example : ∃ s s', Reachable s ∧ Stmt.run (.addVal 0 [] (.int 3)) s = .ok () s' ∧ observe Ex.pd0 Ex.po0 .getCount s' 0 = some (.ok (.count 1)) := by
  obtain ⟨s, hs, h0, _⟩ := Ex.state2 Ex.pd0 Ex.po0
  obtain ⟨s', hr, _, h, _⟩ := C07_add_forgets hs h0 (by decide) (.int 3)
  exact ⟨s, s', hs, hr, h⟩
example : ∃ s s', Reachable s ∧ Stmt.run (.removeIdx 0 [] 0) s = .throw .invalidOperation s' := by
  obtain ⟨s, hs, h0, _⟩ := Ex.state2 Ex.pd0 Ex.po0
  obtain ⟨s', hr, _⟩ := (C10_wrong_kind_throws hs h0).2 (.removeIdx 0 [] 0) (Or.inr (Or.inl ⟨0, rfl, by decide⟩))
  exact ⟨s, s', hs, hr⟩
example : ∃ s s', Reachable s ∧ Stmt.run (.touch 2 [.key (bs "z")]) s = .ok () s' ∧ observe Ex.pd0 Ex.po0 .getType s' 2 = some (.ok (.ty .dict)) := by
  obtain ⟨s, hs, _, _, h2⟩ := Ex.state2 Ex.pd0 Ex.po0
  obtain ⟨s', hr, h, _⟩ := C10_key_index_converts hs h2 (by decide) (bs "z")
  exact ⟨s, s', hs, hr, h⟩
example : ∃ s s', Reachable s ∧ Stmt.run (.touch 0 [.idx 7]) s = .throw (.indexOutOfBounds 7) s' ∧
    observe Ex.pd0 Ex.po0 .getCount s' 0 = some (.ok (.count 0)) := by
  obtain ⟨s, hs, h0, _⟩ := Ex.state2 Ex.pd0 Ex.po0
  obtain ⟨s', hr, _, h⟩ := C10_number_index_destroys hs h0 (by decide) 7
  exact ⟨s, s', hs, hr, h⟩
-- C08: put, overwrite, touch a missing key, remove one, remove a missing one
example : ∃ s', Stmt.runAll (.decl 0 .dict :: [DictOp.put (bs "b") (.int 1), .put (bs "a") (.int 2), .put (bs "b") (.int 3), .get (bs "c"),
    .remove (bs "a"), .remove (bs "z")].map (DictOp.stmt 0)) Cmd.init = some (s', [none, none, none, none, none, none, some (.keyNotFound (bs "z"))]) ∧
    observeAt Ex.pd0 Ex.po0 (.getVal .int) [.key (bs "b")] s' 0 = some (.ok (.val (.int 3))) := by
  obtain ⟨s', hr, h⟩ := C08_finite_map ⟨[], rfl⟩ 0 [.put (bs "b") (.int 1), .put (bs "a") (.int 2), .put (bs "b") (.int 3), .get (bs "c"),
    .remove (bs "a"), .remove (bs "z")]
  exact ⟨s', hr, (h _ rfl _ _).2.1 (bs "b") (.int 3) rfl⟩
-- C09
example : ∃ s', Stmt.runAll (.decl 0 .list :: [ListOp.add (.int 1), .add (.int 2), .add (.int 3), .remove 1, .set 1 (.int 9), .get 2].map (ListOp.stmt 0)) Cmd.init =
      some (s', [none, none, none, none, none, none, some (.indexOutOfBounds 2)]) ∧
    observeAt Ex.pd0 Ex.po0 (.getVal .int) [.idx 1] s' 0 = some (.ok (.val (.int 9))) := by
  obtain ⟨s', hr, h⟩ := C09_sequence ⟨[], rfl⟩ 0 [.add (.int 1), .add (.int 2), .add (.int 3), .remove 1, .set 1 (.int 9), .get 2]
  exact ⟨s', hr, (h _ rfl _ _).2.1 1 (.int 9) rfl⟩
example : ∃ s t, Reachable s ∧ Holds s 0 t ∧ ∃ ds, t = .dict ds := by
  obtain ⟨s, hs, h0, _⟩ := Ex.state2 Ex.pd0 Ex.po0
  obtain ⟨t, ht⟩ := hs.inv.holds (Ex.scope h0)
  rw [ht.observe] at h0
  cases t <;> simp [answer, kind] at h0
  exact ⟨s, _, hs, ht, _, rfl⟩

end LP
