import Verif.Lemma.NullData
import Verif.Prop.Overload
/-! # C115: a null `shared_ptr<DataBase>` given to a Datagram -/
namespace LP.Overload
open Heap Tree

/-! ## C115 -/

theorem assign_null {s : DState} (hs : Reachable s) {x a : Nat} (ha : s.env x = some a) :
    ∃ m, assignStmt x [] (.data none) = some m ∧ m s = .ok () ⟨s.heap.put a ⟨.value, [], [], none⟩, s.env⟩ := by
  refine ⟨_, rfl, ?_⟩
  have hlt := hs.inv.valid x a ha
  simp only [Cmd.withVar, ha, Cmd.onHeap, follow, M.bind_run, M.pure_run, on, Node.assignData, M.modify_run]
  rcases hs.inv.wf.ok a hlt with hn | ⟨v, hn⟩ | ⟨ps, hn⟩ | ⟨d, hn, _⟩ <;> simp [hn]

theorem tidy_put_null {h : Heap} (w : WF h) {a : Nat} : Tidy (h.put a ⟨.value, [], [], none⟩) := by
  constructor
  · intro z hz hty
    simp only [put_node, put_next] at *
    split at hty
    · rename_i e; simp [e]
    · rename_i e; rw [if_neg e]
      rcases w.ok z hz with hn | ⟨v, hn⟩ | ⟨ps, hn⟩ | ⟨d, hn, _⟩ <;> simp [hn] at hty ⊢
  · intro z hz hty
    simp only [put_node, put_next] at *
    split at hty
    · rename_i e; simp [e]
    · rename_i e; rw [if_neg e]
      rcases w.ok z hz with hn | ⟨v, hn⟩ | ⟨ps, hn⟩ | ⟨d, hn, _⟩ <;> simp [hn] at hty ⊢
  · intro z hz b hb
    simp only [put_node, put_next] at *
    split at hb
    · simp [Node.children] at hb
    · obtain ⟨b', h1, _, h3⟩ := w.up z hz _ hb
      simp only [Option.some.injEq] at h1; subst h1; exact h3

/-- After `x = std::shared_ptr<DataBase>();` the datagram says it is a Value and not empty, but no type can be read from it: `Get`
throws, a path read gives the default; it is not equal to itself; a receiver gets Empty. Printing and copying it are
undefined. -/
theorem C115_null_value {s : DState} (hs : Reachable s) {x : Nat} (hx : s.env x ≠ none) (s2 : DState) (y z : Nat) :
    ∃ m s', assignStmt x [] (.data none) = some m ∧ m s = .ok () s' ∧
      (∀ pd po, observe pd po .getType s' x = some (.ok (.ty .value)) ∧ observe pd po .isEmpty s' x = some (.ok (.bool false))) ∧
      (∀ pd po T, observe pd po (.getVal T) s' x = some (.error .invalidOperation)) ∧
      (∀ pd po T path dflt, observe pd po (.getPath T path dflt) s' x = some (.ok (.val dflt))) ∧
      observeEq s' x x = some false ∧
      (∃ f s3, observeWire s' x = some f ∧ Cmd.run (.receive y f) s2 = .ok () s3 ∧ Holds s3 y .empty) ∧
      (∀ a pd po, s'.env x = some a → Query.run pd po .print a s'.heap = .ub) ∧ Cmd.run (.copyCtor z x) s' = .ub := by
  obtain ⟨a, ha⟩ := Option.ne_none_iff_exists'.mp hx
  obtain ⟨m, h1, h2⟩ := assign_null hs ha
  have hn : (s.heap.put a ⟨.value, [], [], none⟩).node a = ⟨.value, [], [], none⟩ := by simp
  have hlt : a < (s.heap.put a ⟨.value, [], [], none⟩).next := hs.inv.valid x a ha
  generalize s.heap.put a ⟨.value, [], [], none⟩ = h at h2 hn hlt
  refine ⟨m, _, h1, h2, ?_, ?_, ?_, ?_, ?_, ?_, ?_⟩
  · intro pd po
    simp [observe, ha, Query.run, Datagram.getType, Datagram.isEmpty, hn]
  · intro pd po T
    simp [observe, ha, Query.run, Datagram.getVal, on, Node.getVal, hn]
  · intro pd po T path dflt
    simp only [observe, ha, Query.run, M.bind_run, Datagram.pathGet, Heap.pathGet, M.get_run, hn, Node.isOfType]
    cases path.isEmpty <;> simp
  · simp [observeEq, ha, Datagram.eq, Heap.eq, hn]
  · have hw : observeWire ⟨h, s.env⟩ x = some (.mk 0 0 none 0 0 false (some []) (some []) (some [])) := by
      simp [observeWire, ha, Datagram.serialize, Heap.serialize, hn, Node.isOfType]
    obtain ⟨m0, s0, _, _, h5, _⟩ := C114_declare s 0 (e := .kind .empty) rfl
    obtain ⟨f, s3, h6, h7, h8, _⟩ := C14_round_trip h5 s2 y
    obtain ⟨a0, ha0, hr0⟩ := h5
    have h9 : observeWire s0 0 = some (.mk 0 0 none 0 0 false (some []) (some []) (some [])) := by
      have := hr0.2
      simp [observeWire, ha0, Datagram.serialize, Heap.serialize, this]
    rw [h9, Option.some.injEq] at h6; subst h6
    exact ⟨_, s3, hw, h7, h8⟩
  · intro b pd po hb
    rw [ha, Option.some.injEq] at hb; subst hb
    simp [Query.run, Heap.print, hn]
  · have h3 : a ≠ h.next := Nat.ne_of_lt hlt
    have h4 : a ≠ h.next + 1 := by omega
    simp [Cmd.run, Cmd.withVar, ha, Cmd.bindVar, Datagram.copyCtor, Datagram.copyAll, Heap.copy, alloc_run, h3, h4, hn]

theorem reach_put {h : Heap} {a b c : Nat} {n : Node Ptr} (hr : Reach h a c) : Reach (h.put b n) a c ∨ Reach (h.put b n) a b := by
  induction hr with
  | refl => exact Or.inl .refl
  | @step d e _ hc ih =>
    rcases ih with ih | ih
    · by_cases hd : d = b
      · subst hd; exact Or.inr ih
      · exact Or.inl (ih.step (by simpa [hd] using hc))
    · exact Or.inr ih

/-- No datagram with such a value anywhere inside can be copied: whatever handle `y` on a part of `x` it is assigned through,
from then on neither copy construction from `x` nor assignment of `x` returns, whatever the bound on the recursion. -/
theorem C115_poisons_whole {s : DState} (hs : Reachable s) {x y a b : Nat} (ha : s.env x = some a) (hb : s.env y = some b)
    (hr : Reach s.heap a b) :
    ∃ m s', assignStmt y [] (.data none) = some m ∧ m s = .ok () s' ∧ (∀ n c h', copy n a s'.heap ≠ .ok c h') ∧
      (∀ z s'', Cmd.run (.copyCtor z x) s' ≠ .ok () s'') ∧ ∀ z d s'', s'.env z = some d → Cmd.run (.assign z x) s' ≠ .ok () s'' := by
  obtain ⟨m, h1, h2⟩ := assign_null hs hb
  have hlt := hs.inv.valid x a ha
  have hr' : Reach (s.heap.put b ⟨.value, [], [], none⟩) a b := by rcases reach_put (b := b) (n := ⟨.value, [], [], none⟩) hr with h | h <;> exact h
  have tidy := tidy_put_null hs.inv.wf (a := b)
  have hn : (s.heap.put b ⟨.value, [], [], none⟩).node b = ⟨.value, [], [], none⟩ := by simp
  have hlt' : a < (s.heap.put b ⟨.value, [], [], none⟩).next := hlt
  generalize s.heap.put b ⟨.value, [], [], none⟩ = h at h2 hr' tidy hn hlt'
  have hcopy : ∀ g n c h', Ext h g → copy n a g ≠ .ok c h' := by
    intro g n c h' hg he
    have := (copy_ok tidy n g a c h' hg hlt' he).2 b hr' (by rw [hn])
    exact this (by rw [hn])
  refine ⟨m, _, h1, h2, fun n c h' => hcopy h n c h' (Ext.refl h), ?_, ?_⟩
  · intro z s'' he
    simp only [Cmd.run, Cmd.withVar, ha, Cmd.bindVar] at he
    cases hc : Datagram.copyCtor a h with
    | ok r g =>
      obtain ⟨c, g1, h3, h4⟩ := bind_ok (m := alloc Node.empty) hc
      obtain ⟨c', g2, h5, _⟩ := bind_ok (m := Datagram.copyAll a) h4
      simp only [alloc_run, Res.ok.injEq] at h3
      obtain ⟨_, rfl⟩ := h3
      exact hcopy _ _ _ _ (ext_alloc h Node.empty) h5
    | throw e g => rw [hc] at he; cases he
    | ub => rw [hc] at he; cases he
    | fuel => rw [hc] at he; cases he
  · intro z d s'' hd he
    simp only at hd
    simp only [Cmd.run, Cmd.withVar, ha, hd, Cmd.onHeap] at he
    cases hc : Datagram.assign d a h with
    | ok r g =>
      obtain ⟨c', g2, h5, _⟩ := bind_ok (m := Datagram.copyAll a) hc
      exact hcopy _ _ _ _ (Ext.refl h) h5
    | throw e g => rw [hc] at he; cases he
    | ub => rw [hc] at he; cases he
    | fuel => rw [hc] at he; cases he

/-- Assigning anything else heals it: the state is the one that this assignment alone would have led to. -/
theorem C115_assignment_heals {s : DState} (hs : Reachable s) {x : Nat} (hx : s.env x ≠ none) {e : Arg} {u : Tree}
    (he : e.assigned = some u) :
    ∃ m0 s1 m s', assignStmt x [] (.data none) = some m0 ∧ m0 s = .ok () s1 ∧ assignStmt x [] e = some m ∧ m s1 = .ok () s' ∧
      m s = .ok () s' ∧ Holds s' x u := by
  obtain ⟨a, ha⟩ := Option.ne_none_iff_exists'.mp hx
  obtain ⟨m0, h1, h2⟩ := assign_null hs ha
  obtain ⟨t, ht⟩ := hs.inv.holds hx
  obtain ⟨m, s', h3, h4, h5⟩ := C114_assign hs ht [] he
  refine ⟨m0, _, m, s', h1, h2, h3, ?_, h4, h5⟩
  have hlt := hs.inv.valid x a ha
  have hne : a ≠ s.heap.next := Nat.ne_of_lt hlt
  have h4' : m s = .ok () s' := h4
  rw [← h4']
  cases e <;> simp only [Arg.assigned, reduceCtorEq, Option.map_eq_some_iff] at he <;>
    simp only [assignStmt, assignArg, Arg.ty, resolve_table, Arg.convert, Option.map_some, Option.some.injEq] at h3 <;> subst h3 <;>
    simp only [Cmd.withVar, ha, Cmd.onHeap, follow, M.bind_run, M.pure_run, on, Node.assignData, Datagram.assignVal, Node.setValue, alloc_run,
      Datagram.assignFromTemp, M.modify_run, Res.ok.injEq, true_and, DState.mk.injEq, and_true] <;>
    (rcases hs.inv.wf.ok a hlt with hn | ⟨v, hn⟩ | ⟨ps, hn⟩ | ⟨d, hn, _⟩ <;> simp [hn, Heap.put] <;> funext z <;>
      by_cases e1 : z = a <;> by_cases e2 : z = s.heap.next <;> simp_all)

example : ∃ s, Reachable s ∧ s.env 0 = some 0 ∧ s.env 1 = some 1 ∧ Reach s.heap 0 1 := by
  obtain ⟨s, hs, h⟩ := reach_eval Ex.prog1 (fun s => (s.env 0, s.env 1, decide (some 1 ∈ (s.heap.node 0).children))) (some 0, some 1, true) rfl
  simp only [Prod.mk.injEq, decide_eq_true_eq] at h
  exact ⟨s, hs, h.1, h.2.1, Reach.refl.step h.2.2⟩

example : ∃ s, Reachable s ∧ s.env 0 ≠ none ∧ (Arg.string (bs "text")).assigned = some (.value (.str (bs "text"))) := by
  obtain ⟨s, hs, hx⟩ := Ex.state1
  exact ⟨s, hs, hx, rfl⟩

end LP.Overload
