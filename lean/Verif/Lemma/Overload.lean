import Verif.Spec.Overload
import Verif.Lemma.Exchange
/-! Assigning and declaring with any argument. -/
namespace LP.Overload
open Heap Tree

theorem replace_does {h : Heap} (w : WF h) {b : Nat} {t u : Tree} (ht : Rep h (fun x => x < h.next) t b) {n : Node Ptr}
    (hn : NodeOk n) (hc : n.children = [])
    (hu : ∀ (h' : Heap) c, h'.node c = n → c < h'.next → Rep h' (fun x => x < h'.next) u c) :
    Does (do let c ← alloc n; Datagram.assignFromTemp b c) h b (Tree.eSet u t) := by
  have hb := Rep.mem ht
  have hne : b ≠ h.next := Nat.ne_of_lt hb
  have w1 := w.alloc (n := Node.empty) (Or.inl rfl) rfl
  have hcomm : (({ (h.put h.next n) with next := h.next + 1 } : Heap).put b n).put h.next Node.empty =
      ({ (h.put h.next Node.empty) with next := h.next + 1 } : Heap).put b n := by
    simp only [Heap.put]; congr 1; funext z
    by_cases e : z = h.next
    · subst e; simp [Ne.symm hne]
    · simp [e]
  refine ⟨({ (h.put h.next Node.empty) with next := h.next + 1 } : Heap).put b n, ?_, ?_⟩
  · simp only [M.bind_run, alloc_run, Datagram.assignFromTemp, M.modify_run, Tree.eSet, put_node, if_true, hcomm]
  · refine Good.one (w1.put (Nat.lt_succ_of_lt hb) hn (by simp [hc]) (by simp [hc])) (by simp) ?_ ?_ ?_
    · intro c hc' hcb; simp [hcb, Nat.ne_of_lt hc']
    · intro c _ hm; simp [hc] at hm
    · exact hu _ _ (by simp) (by simp; omega)

theorem assignData_does {h : Heap} (w : WF h) {a : Nat} {t : Tree} (ht : Rep h (fun x => x < h.next) t a) (v : Val) :
    Does (on a (Node.assignData (some v))) h a (Tree.eSet (.value v) t) := by
  have ha := Rep.mem ht
  refine ⟨h.put a ⟨.value, [], [], some v⟩, ?_, ?_⟩
  · simp only [on, Node.assignData, M.modify_run, Tree.eSet]
    rcases w.ok a ha with hn | ⟨v, hn⟩ | ⟨ps, hn⟩ | ⟨d, hn, _⟩ <;> simp [hn]
  · exact Good.leaf w ha (Or.inr (Or.inl ⟨_, rfl⟩)) rfl ⟨ha, by simp⟩

theorem edit_at {s : DState} (inv : Inv s) {x : Nat} {t : Tree} (ht : Holds s x t) (p : List Sel) {F : Tree.Edit} {m : Nat → M Heap Unit}
    (hm : ∀ h1 b u, WF h1 → Rep h1 (fun x => x < h1.next) u b → Does (m b) h1 b (F u)) :
    ∃ s', Ends (Cmd.withVar x (fun a => Cmd.onHeap (follow p a >>= m)) s) (Tree.editAt p F t).2 s' ∧ Inv s' ∧
      Holds s' x (Tree.editAt p F t).1 ∧ s'.env = s.env := by
  obtain ⟨a, ha, hr⟩ := ht
  obtain ⟨h', hrun, g⟩ := follow_does inv.wf hr p m F (fun h1 b u w r _ _ => hm h1 b u w r)
  refine ⟨⟨h', s.env⟩, ?_, ⟨g.wf, fun y b hy => Nat.lt_of_lt_of_le (inv.valid y b hy) g.mono⟩, ⟨a, ha, g.rep⟩, rfl⟩
  simp only [Ends, Cmd.withVar, ha, Cmd.onHeap, hrun]
  cases (Tree.editAt p F t).2 <;> rfl

theorem resolve_table (t : CTy) : resolve t = match t with
    | .bool | .charPtr | .pointer => some .bool
    | .char | .short | .enum | .int => some .int
    | .float | .double => some .double
    | .string => some .string
    | .dataPtr => some .data
    | .rawPtr | .kind | .object _ => some .copy
    | .unsigned | .long | .unsignedLong | .nullPtr | .typedPtr => none := by
  cases t <;> first | rfl | decide | (rename_i n; simp [resolve, Over.all, best, rank, CTy.promotesToInt, CTy.arithmetic, Rank.num, List.find?])

theorem assignArg_does {e : Arg} {u : Tree} (he : e.assigned = some u) :
    ∃ m, assignArg e = some m ∧ ∀ (h1 : Heap) b t, WF h1 → Rep h1 (fun x => x < h1.next) t b → Does (m b) h1 b (Tree.eSet u t) := by
  cases e <;> simp only [Arg.assigned, Option.some.injEq, reduceCtorEq, Option.map_eq_some_iff] at he <;>
    simp only [assignArg, Arg.ty, resolve_table, Arg.convert, Option.map_some, Option.some.injEq, exists_eq_left']
  case data =>
    obtain ⟨v, rfl, rfl⟩ := he
    intro h1 b t w r; exact assignData_does w r v
  case kind ty =>
    subst he
    intro h1 b t w r; exact replace_does w r (nodeOk_ofType _) (children_ofType _) (rep_ofType _)
  case raw => subst he; intro h1 b t w r; exact replace_does w r (nodeOk_ofVal _) rfl (rep_ofVal _)
  case object => subst he; intro h1 b t w r; exact replace_does w r (nodeOk_ofVal _) rfl (rep_ofVal _)
  all_goals (subst he; intro h1 b t w r; exact assignVal_does w r _)

end LP.Overload
