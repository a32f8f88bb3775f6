import Verif.Lemma.Exchange
import Verif.Prop.Copy
import Verif.Prop.Object
import Verif.Prop.Forest
/-! # C14, C15, C16, C18, C19: serialisation, deserialisation, JSON import -/
namespace LP
open Heap Tree

/-! ## C14 -/

/-- Serialising never fails and changes nothing. Whatever process `s2` reads the table gets, in a new variable, the
document `t.wire`: `t` with other value types and empty containers replaced by Empty and negative zeros by zero. The
other variables of that process keep their documents. -/
theorem C14_round_trip {s : DState} {x : Nat} {t : Tree} (hx : Holds s x t) (s2 : DState) (y : Nat) :
    ∃ f s3, observeWire s x = some f ∧ Cmd.run (.receive y f) s2 = .ok () s3 ∧ Holds s3 y t.wire ∧
      ∀ z u, z ≠ y → Holds s2 z u → Holds s3 z u := by
  obtain ⟨f, h1, h2, h3⟩ := hx.wire
  obtain ⟨u, s3, h4, h5, h6, h7⟩ := receive_run s2 y h2
  cases Means.unique h3 h4
  exact ⟨f, s3, h1, h5, h6, h7⟩

/-- Serialising leaves every datagram as it was. -/
theorem C14_serialize_pure {s : DState} {x a : Nat} {t : Tree} (hx : Holds s x t) (ha : s.env x = some a) :
    ∃ f, Datagram.serialize a s.heap = .ok f s.heap := by
  obtain ⟨b, hb, hr⟩ := hx
  rw [ha, Option.some.injEq] at hb; subst hb
  have hd := Rep.depth_next hr
  obtain ⟨f, h1, _⟩ := serialize_main t (s.heap.next + 1) a (by omega) hr
  exact ⟨f, by simp only [Datagram.serialize, M.bind_run, M.get_run, h1]⟩

/-- The round trip compares equal to the original, in both directions, exactly when nothing in it is lossy: no NaN, no
unsupported value type, no empty container. -/
theorem C14_equal_iff {s : DState} {x : Nat} {t : Tree} (hx : Holds s x t) {y : Nat} (hxy : x ≠ y) :
    ∃ f s3, observeWire s x = some f ∧ Cmd.run (.receive y f) s = .ok () s3 ∧
      (observeEq s3 x y = some true ↔ ¬ Lossy t) ∧ (observeEq s3 y x = some true ↔ ¬ Lossy t) ∧
      observeEq s3 x y ≠ none ∧ observeEq s3 y x ≠ none := by
  obtain ⟨f, s3, h1, h2, h3, h4⟩ := C14_round_trip hx s y
  have hx3 := h4 x t hxy hx
  have hc := (hx.canon).same_wire
  obtain ⟨r, hr, hri⟩ := hx3.observeEq h3
  obtain ⟨q, hq, hqi⟩ := h3.observeEq hx3
  have hqi' : q = true ↔ Same t t.wire := hqi.trans ⟨Same.symm, Same.symm⟩
  refine ⟨f, s3, h1, h2, ?_, ?_, by rw [hr]; simp, by rw [hq]; simp⟩
  · rw [hr, Option.some.injEq, hri, hc]
  · rw [hq, Option.some.injEq, hqi', hc]

/-- A second round trip changes nothing more: everything a client can observe of the second is what it observes of the
first. -/
theorem C14_stable {s : DState} {x : Nat} {t : Tree} (hx : Holds s x t) {y z : Nat} (hyz : y ≠ z) :
    ∃ f s2 g s3, observeWire s x = some f ∧ Cmd.run (.receive y f) s = .ok () s2 ∧ observeWire s2 y = some g ∧
      Cmd.run (.receive z g) s2 = .ok () s3 ∧ ∀ pd po q, observe pd po q s3 z = observe pd po q s3 y := by
  obtain ⟨f, s2, h1, h2, h3, _⟩ := C14_round_trip hx s y
  obtain ⟨g, s3, h5, h6, h7, h8⟩ := C14_round_trip h3 s2 z
  refine ⟨f, s2, g, s3, h1, h2, h5, h6, fun pd po q => ?_⟩
  rw [wire_wire] at h7
  rw [h7.observe, (h8 y _ hyz h3).observe]

/-! ## C15 -/

/-- Whatever list or dictionary a program has built, once cleared it does not survive a round trip: the result is Empty,
and does not compare equal. -/
theorem C15_cleared_container_lost {s : DState} (hs : Reachable s) {x y : Nat} (hxy : x ≠ y) {pd : Dbl → Str} {po : Nat → Nat → Str} {ty : Ty}
    (hty : ty = .list ∨ ty = .dict) (hx : observe pd po .getType s x = some (.ok (.ty ty))) :
    ∃ s1 f s2, Cmd.run (.clear x) s = .ok () s1 ∧ observeWire s1 x = some f ∧ Cmd.run (.receive y f) s1 = .ok () s2 ∧
      observe pd po .getType s2 x = some (.ok (.ty ty)) ∧ observe pd po .getType s2 y = some (.ok (.ty .empty)) ∧
      observeEq s2 x y = some false ∧ observeEq s2 y x = some false := by
  have hsc : s.env x ≠ none := by intro e; simp [observe, e] at hx
  obtain ⟨t, ht⟩ := hs.inv.holds hsc
  rw [ht.observe] at hx
  obtain ⟨s1, h1, inv1, h2, _⟩ := stmt_edit hs.inv ht (c := .clear x []) rfl
  have hcl : ∃ u, Tree.editAt [] Tree.eClear t = (u, none) ∧ u.kind = ty ∧ Lossy u ∧ u.wire = .empty := by
    cases t with
    | empty => simp [Tree.answer, Tree.kind] at hx; subst hx; simp at hty
    | value v => simp [Tree.answer, Tree.kind] at hx; subst hx; simp at hty
    | list ts => simp [Tree.answer, Tree.kind] at hx; subst hx; exact ⟨.list [], rfl, rfl, .emptyList, rfl⟩
    | dict ds => simp [Tree.answer, Tree.kind] at hx; subst hx; exact ⟨.dict [], rfl, rfl, .emptyDict, rfl⟩
  obtain ⟨u, hu, hk, hl, hw⟩ := hcl
  rw [hu] at h1 h2
  simp only [Ends] at h1
  have hrun : Cmd.run (.clear x) s = .ok () s1 := by
    rw [← h1]; rfl
  obtain ⟨f, s2, h3, h4, h5, h6, h7, h8⟩ := C14_equal_iff h2 hxy
  obtain ⟨f', s2', h3', h4', h5', h6'⟩ := C14_round_trip h2 s1 y
  rw [h3, Option.some.injEq] at h3'; subst h3'
  rw [h4, Res.ok.injEq] at h4'; obtain ⟨_, rfl⟩ := h4'
  refine ⟨s1, f, s2, hrun, h3, h4, ?_, ?_, ?_, ?_⟩
  · rw [(h6' x u hxy h2).observe]; simp [Tree.answer, hk]
  · rw [h5'.observe, hw]; rfl
  · cases h : observeEq s2 x y with
    | none => exact absurd h h7
    | some b => cases b
                · rfl
                · exact absurd hl (h5.mp h)
  · cases h : observeEq s2 y x with
    | none => exact absurd h h8
    | some b => cases b
                · rfl
                · exact absurd hl (h6.mp h)

/-! ## C16 -/

/-- Every table means at most one document, and has a meaning exactly when it lacks no field that reading needs. -/
theorem C16_meaning (f : FB) : ((∃ t, Means f t) ↔ ¬ Broken f) ∧ (∀ t u, Means f t → Means f u → t = u) := by
  refine ⟨⟨fun ⟨t, ht⟩ hb => hb.no_meaning ht, fun hf => ?_⟩, fun t u ht hu => Means.unique ht hu⟩
  rcases deserialize_spec f with ⟨h, _⟩ | ⟨_, t, ht, _⟩
  · exact absurd h hf
  · exact ⟨t, ht⟩

/-- Reading any table, produced by a serialiser or not, into any process: a table that lacks a needed field is undefined
behaviour; every other table yields the document it means, without null children, cycles or sharing, and touches nothing else. -/
theorem C16_arbitrary_tables (f : FB) (s : DState) (x : Nat) :
    (Broken f → Cmd.run (.receive x f) s = .ub) ∧
    (∀ t, Means f t → ∃ s', Cmd.run (.receive x f) s = .ok () s' ∧ Holds s' x t ∧
      (∀ z u, z ≠ x → Holds s z u → Holds s' z u) ∧ (Reachable s → Reachable s')) := by
  refine ⟨fun hb => cmd_ub (c := .receive x f) (by simp [Cmd.Sound, hb]), fun t ht => ?_⟩
  obtain ⟨u, s', h1, h2, h3, h4⟩ := receive_run s x (fun hb => hb.no_meaning ht)
  cases Means.unique ht h1
  exact ⟨s', h2, h3, h4, fun hs => hs.step h2⟩

/-! ## C18 -/

/-- Importing any text into any process gives the document that the parsed JSON means (Empty for unparsable text), in a
new variable; nothing else changes. The meaning is unique. -/
theorem C18_json_import (tok : Str → Option Json) (text : Str) (s : DState) (x : Nat) :
    ∃ s' t, Cmd.run (.json x tok text) s = .ok () s' ∧ Holds s' x t ∧
      (tok text = none → t = .empty) ∧ (∀ j, tok text = some j → JsonMeans j t ∧ ∀ u, JsonMeans j u → u = t) ∧
      (∀ z u, z ≠ x → Holds s z u → Holds s' z u) := by
  obtain ⟨t, s', h1, h2, h3, h4⟩ := json_run s x tok text
  refine ⟨s', t, h2, h3, ?_, ?_, h4⟩
  · intro h; rw [h] at h1; exact h1
  · intro j h; rw [h] at h1; exact ⟨h1, fun u hu => JsonMeans.unique hu h1⟩

/-! ## C19 -/

/-- Nothing imported from JSON contains an empty container at any depth, a null or a cycle. Copying, comparing, printing
and serialising it return normally. -/
theorem C19_json_no_empty {s : DState} (hs : Reachable s) (tok : Str → Option Json) (text : Str) (x : Nat) :
    ∃ s' t a, Cmd.run (.json x tok text) s = .ok () s' ∧ Reachable s' ∧ Holds s' x t ∧ ¬ HasEmptyContainer t ∧
      s'.env x = some a ∧ NoNulls s'.heap a ∧ ¬ LeadsToCycle s'.heap a ∧
      (∀ pd po q, observe pd po q s' x ≠ none) ∧ observeEq s' x x ≠ none ∧ observeWire s' x ≠ none ∧
      ∀ y, ∃ s'', Cmd.run (.copyCtor y x) s' = .ok () s'' := by
  obtain ⟨t, s', h1, h2, h3, h4⟩ := json_run s x tok text
  have hs' := hs.step h2
  obtain ⟨a, ha, hr⟩ := h3
  have h3 : Holds s' x t := ⟨a, ha, hr⟩
  refine ⟨s', t, a, h2, hs', h3, ?_, ha, (C21_acyclic hs' ha).2, (C21_acyclic hs' ha).1, (C21_reads_return hs' h3.scope h3.scope).1,
    (C21_reads_return hs' h3.scope h3.scope).2.1, ?_, ?_⟩
  · cases hj : tok text with
    | none => rw [hj] at h1; simp only at h1; subst h1; nofun
    | some j => rw [hj] at h1; exact JsonMeans.no_empty h1
  · obtain ⟨f, hf, _⟩ := h3.wire; rw [hf]; simp
  · intro y
    obtain ⟨h1, hr1, _⟩ := copyCtor_spec hs'.inv.wf hr
    exact ⟨⟨h1, fun z => if z = y then some s'.heap.next else s'.env z⟩, by simp only [Cmd.run, Cmd.withVar, ha, Cmd.bindVar, hr1]⟩

/-! ## Cases that meet the hypotheses -/
namespace Ex
/-- Variable 0 holds `[{"a": 7, "b": 7}, Empty]`, variable 1 the dictionary in it. -/
def wired : DState := ⟨shared, fun x => if x = 0 then some 2 else if x = 1 then some 0 else none⟩
theorem wired_holds : Holds wired 0 sharedTree := ⟨2, rfl, shared_rep⟩
theorem wired_not_lossy : ¬ Lossy sharedTree := by
  intro h
  simp only [sharedTree] at h
  cases h with
  | list hm hl =>
    simp only [List.mem_cons, List.not_mem_nil, or_false] at hm
    rcases hm with rfl | rfl
    · cases hl with
      | dict hm hl =>
        simp only [List.mem_cons, List.not_mem_nil, or_false, Prod.mk.injEq] at hm
        rcases hm with ⟨_, rfl⟩ | ⟨_, rfl⟩ <;> cases hl
    · cases hl
/-- Variable 0 holds `[NaN, -0.0, []]`. -/
def lossyHeap : Heap := ⟨4, fun a => if a = 0 then ⟨.list, [], [some 1, some 2, some 3], none⟩
  else if a = 1 then ⟨.value, [], [], some (.dbl 0x7ff8000000000000)⟩
  else if a = 2 then ⟨.value, [], [], some (.dbl 0x8000000000000000)⟩ else ⟨.list, [], [], none⟩⟩
/-- A variable for the list of `lossyTree`. -/
def lossyState : DState := ⟨lossyHeap, fun x => if x = 0 then some 0 else none⟩
/-- A list of doubles that print or compare unusually. -/
def lossyTree : Tree := .list [.value (.dbl 0x7ff8000000000000), .value (.dbl 0x8000000000000000), .list []]
theorem lossy_holds : Holds lossyState 0 lossyTree := by
  refine ⟨0, rfl, by decide, _, rfl, 1, _, rfl, ⟨by decide, rfl⟩, 2, _, rfl, ⟨by decide, rfl⟩, 3, _, rfl, ⟨by decide, [], rfl, rfl⟩, rfl⟩
/-- A table with a duplicate key, an unknown tag and one content too many. -/
def odd : FB := .mk 3 0 none 0 0 false none (some [bs "k", bs "a", bs "k"])
  (some [.mk 1 1 none 4 0 false none none none, .mk 9 0 none 0 0 false none none none, .mk 1 3 none 0 0 true none none none,
    .mk 1 0 none 0 0 false none none none])
theorem odd_means : Means odd (.dict [(bs "a", .empty), (bs "k", .value (.bool true))]) := by
  refine .dict (ms := [(bs "k", .value (.int 4)), (bs "a", .empty), (bs "k", .value (.bool true))]) (by decide) (by simp) rfl ?_ ?_ ?_ ?_
  · intro i kt h
    match i with
    | 0 => simp at h; subst h; rfl
    | 1 => simp at h; subst h; rfl
    | 2 => simp at h; subst h; rfl
    | n + 3 => simp at h
  · intro i kt f h h'
    match i with
    | 0 => simp at h h'; subst h h'; exact .int
    | 1 => simp at h h'; subst h h'; exact .unknown (by decide)
    | 2 => simp at h h'; subst h h'; exact .bool
    | n + 3 => simp at h
  · simp only [List.pairwise_cons, List.mem_singleton, forall_eq, List.not_mem_nil, false_implies, implies_true, List.Pairwise.nil, and_true]
    decide
  · intro kt
    constructor
    · intro h
      simp only [List.mem_cons, List.not_mem_nil, or_false] at h
      rcases h with rfl | rfl
      · exact ⟨[(bs "k", .value (.int 4))], _, rfl, by simp; decide⟩
      · exact ⟨[(bs "k", .value (.int 4)), (bs "a", .empty)], _, rfl, by simp⟩
    · rintro ⟨l1, l2, h1, h2⟩
      match l1 with
      | [] =>
        simp only [List.nil_append, List.cons.injEq] at h1
        obtain ⟨rfl, rfl⟩ := h1
        exact absurd rfl (h2 (bs "k", .value (.bool true)) (by simp))
      | [_] => simp only [List.cons_append, List.nil_append, List.cons.injEq] at h1; obtain ⟨_, rfl, _⟩ := h1; simp
      | [_, _] => simp only [List.cons_append, List.nil_append, List.cons.injEq] at h1; obtain ⟨_, _, rfl, _⟩ := h1; simp
      | a :: b :: c :: l => simp at h1
/-- A tokener that knows one text. -/
def tok : Str → Option Json := fun s => if s = bs "x" then some (.object [(bs "n", .int 99999999999), (bs "l", .array [.null, .array []])]) else none
end Ex

example : ∃ f s3, observeWire Ex.lossyState 0 = some f ∧ Cmd.run (.receive 5 f) Ex.wired = .ok () s3 ∧
    Holds s3 5 (.list [.value (.dbl 0x7ff8000000000000), .value (.dbl 0), .empty]) ∧ ∀ z u, z ≠ 5 → Holds Ex.wired z u → Holds s3 z u :=
  C14_round_trip Ex.lossy_holds Ex.wired 5
example : ∃ f, Datagram.serialize 2 Ex.shared = .ok f Ex.shared := C14_serialize_pure (s := Ex.wired) Ex.wired_holds rfl
example : ∃ f s3, observeWire Ex.wired 0 = some f ∧ Cmd.run (.receive 1 f) Ex.wired = .ok () s3 ∧ observeEq s3 0 1 = some true := by
  obtain ⟨f, s3, h1, h2, h3, _⟩ := C14_equal_iff Ex.wired_holds (y := 1) (by decide)
  exact ⟨f, s3, h1, h2, h3.mpr Ex.wired_not_lossy⟩
example : ∃ f s3, observeWire Ex.lossyState 0 = some f ∧ Cmd.run (.receive 1 f) Ex.lossyState = .ok () s3 ∧ observeEq s3 0 1 ≠ some true := by
  obtain ⟨f, s3, h1, h2, h3, _⟩ := C14_equal_iff Ex.lossy_holds (y := 1) (by decide)
  exact ⟨f, s3, h1, h2, fun h => h3.mp h (.list (t := .value (.dbl 0x7ff8000000000000)) (by simp) (.nan (by decide)))⟩
example : ∃ f s2 g s3, observeWire Ex.lossyState 0 = some f ∧ Cmd.run (.receive 1 f) Ex.lossyState = .ok () s2 ∧ observeWire s2 1 = some g ∧
    Cmd.run (.receive 2 g) s2 = .ok () s3 ∧ ∀ pd po q, observe pd po q s3 2 = observe pd po q s3 1 := C14_stable Ex.lossy_holds (by decide)
example : ∃ s, Reachable s ∧ ∃ s1 f s2, Cmd.run (.clear 2) s = .ok () s1 ∧ observeWire s1 2 = some f ∧ Cmd.run (.receive 7 f) s1 = .ok () s2 ∧
    observeEq s2 2 7 = some false := by
  obtain ⟨s, hs, _, _, h2⟩ := Ex.state2 Ex.pd0 Ex.po0
  obtain ⟨s1, f, s2, a, b, c, _, _, d, _⟩ := C15_cleared_container_lost hs (x := 2) (y := 7) (by decide) (.inl rfl) h2
  exact ⟨s, hs, s1, f, s2, a, b, c, d⟩
example : ¬ Broken Ex.odd := (C16_meaning Ex.odd).1.mp ⟨_, Ex.odd_means⟩
example : ∃ s', Cmd.run (.receive 3 Ex.odd) Ex.wired = .ok () s' ∧ Holds s' 3 (.dict [(bs "a", .empty), (bs "k", .value (.bool true))]) := by
  obtain ⟨s', h1, h2, _⟩ := (C16_arbitrary_tables Ex.odd Ex.wired 3).2 _ Ex.odd_means
  exact ⟨s', h1, h2⟩
example : Cmd.run (.receive 3 (.mk 2 0 none 0 0 false (some [Ex.odd, .mk 1 0 none 0 0 false none none none]) none none)) Ex.wired = .ub :=
  (C16_arbitrary_tables _ _ _).1 (.inList (f := .mk 1 0 none 0 0 false none none none) (by simp) .str)
example : ∃ s' t, Cmd.run (.json 3 Ex.tok (bs "x")) Ex.wired = .ok () s' ∧ Holds s' 3 t ∧
    JsonMeans (.object [(bs "n", .int 99999999999), (bs "l", .array [.null, .array []])]) t := by
  obtain ⟨s', t, h1, h2, _, h3, _⟩ := C18_json_import Ex.tok (bs "x") Ex.wired 3
  exact ⟨s', t, h1, h2, (h3 _ rfl).1⟩
example : JsonMeans (.object [(bs "n", .int 99999999999), (bs "l", .array [.null, .array []])])
    (.dict [(bs "l", .list [.empty, .empty]), (bs "n", .value (.int 2147483647))]) := by
  refine .object (ns := [(bs "n", .value (.int 2147483647)), (bs "l", .list [.empty, .empty])]) (by simp) rfl ?_ ?_ ?_ ?_
  · intro i m n h h'
    match i with
    | 0 => simp at h h'; subst h h'; exact .inl ⟨by decide, rfl⟩
    | 1 => simp at h h'; subst h h'; exact .inl ⟨by decide, rfl⟩
    | n + 2 => simp at h
  · intro i m n h h'
    match i with
    | 0 => simp at h h'; subst h h'; exact .int (by decide)
    | 1 =>
      simp at h h'; subst h h'
      refine .array (by simp) rfl ?_
      intro i j t h h'
      match i with
      | 0 => simp at h h'; subst h h'; exact .null
      | 1 => simp at h h'; subst h h'; exact .emptyArray
      | n + 2 => simp at h
    | n + 2 => simp at h
  · simp only [List.pairwise_cons, List.mem_singleton, forall_eq, List.not_mem_nil, false_implies, implies_true, List.Pairwise.nil, and_true]
    decide
  · intro kt
    constructor
    · intro h
      simp only [List.mem_cons, List.not_mem_nil, or_false] at h
      rcases h with rfl | rfl
      · exact ⟨[(bs "n", .value (.int 2147483647))], [], rfl, by simp⟩
      · exact ⟨[], _, rfl, by simp; decide⟩
    · rintro ⟨l1, l2, h1, h2⟩
      match l1 with
      | [] => simp only [List.nil_append, List.cons.injEq] at h1; obtain ⟨rfl, _⟩ := h1; simp
      | [_] => simp only [List.cons_append, List.nil_append, List.cons.injEq] at h1; obtain ⟨_, rfl, _⟩ := h1; simp
      | a :: b :: l => simp at h1
example : ∃ s' t a, Cmd.run (.json 3 Ex.tok (bs "x")) Cmd.init = .ok () s' ∧ Holds s' 3 t ∧ ¬ HasEmptyContainer t ∧ s'.env 3 = some a := by
  obtain ⟨s', t, a, h1, _, h2, h3, h4, _⟩ := C19_json_no_empty ⟨[], rfl⟩ Ex.tok (bs "x") 3
  exact ⟨s', t, a, h1, h2, h3, h4⟩

end LP
