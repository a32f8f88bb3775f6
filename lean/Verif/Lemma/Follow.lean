import Verif.Lemma.Local
/-! What indexing, chains of indexing and the leaf operations do to documents. -/
namespace LP
open Heap

theorem Dict.insert_insert {V : Type} (k : Str) (v w : V) (d : Dict V) :
    Dict.insert k v (Dict.insert k w d) = Dict.insert k v d := by
  induction d with
  | nil => simp [Dict.insert]
  | cons e d ih =>
    obtain ⟨q, u⟩ := e
    simp only [Dict.insert]
    split
    · simp [Dict.insert]
    · split
      · simp [Dict.insert]
      · rename_i h1 h2; simp [Dict.insert, h1, h2, ih]

theorem Dict.insert_self {V : Type} {k : Str} {v : V} {d : Dict V} (hs : Dict.Sorted d) (h : Dict.find k d = some v) :
    Dict.insert k v d = d := by
  refine Dict.ext (Dict.insert_sorted hs) hs ?_
  intro k'
  rw [Dict.find_insert]
  split
  · rename_i e; subst e; exact h.symm
  · rfl

theorem Rep.dict_sorted {h : Heap} {S : Addr → Prop} {ds : List (Str × Tree)} {d : Dict Ptr} (hs : Dict.Sorted d)
    (hr : RepD h S ds d) : Dict.Sorted (V := Tree) ds := Dict.sorted_of_keys (RepD_iff.mp hr).1 hs

/-- The object at `a`, seen as a dictionary. -/
theorem Rep.asDict {h : Heap} {S : Addr → Prop} {t : Tree} {a : Nat} (ht : Rep h S t a) :
    ∃ d, (h.node a).dict = d ∧ (h.node a).toDict = ⟨.dict, d, [], none⟩ ∧ Dict.Sorted d ∧ RepD h S t.asDict d := by
  cases t with
  | empty => simp only [Rep] at ht; rw [ht.2]; exact ⟨[], rfl, by simp [Node.toDict], by simp, rfl⟩
  | value v => simp only [Rep] at ht; rw [ht.2]; exact ⟨[], rfl, by simp [Node.toDict], by simp, rfl⟩
  | list ts => obtain ⟨_, ps, hn, _⟩ := ht; rw [hn]; exact ⟨[], rfl, by simp [Node.toDict], by simp, rfl⟩
  | dict ds => obtain ⟨_, d, hn, hs, hr⟩ := ht; rw [hn]; exact ⟨d, rfl, by simp [Node.toDict], hs, hr⟩

theorem Rep.asList {h : Heap} {S : Addr → Prop} {t : Tree} {a : Nat} (ht : Rep h S t a) :
    ∃ ps, (h.node a).list = ps ∧ (h.node a).toList = ⟨.list, [], ps, none⟩ ∧ RepL h S t.asList ps := by
  cases t with
  | empty => simp only [Rep] at ht; rw [ht.2]; exact ⟨[], rfl, by simp [Node.toList], rfl⟩
  | value v => simp only [Rep] at ht; rw [ht.2]; exact ⟨[], rfl, by simp [Node.toList], rfl⟩
  | list ts => obtain ⟨_, ps, hn, hr⟩ := ht; rw [hn]; exact ⟨ps, rfl, by simp [Node.toList], hr⟩
  | dict ds => obtain ⟨_, d, hn, hs, hr⟩ := ht; rw [hn]; exact ⟨[], rfl, by simp [Node.toList], rfl⟩

theorem Node.children_toDict {n : Node Ptr} {d : Dict Ptr} (h : n.toDict = ⟨.dict, d, [], none⟩) :
    ∀ p ∈ d.map Prod.snd, p ∈ n.children := by
  intro p hp
  unfold Node.toDict at h
  split at h
  · simp only [Node.mk.injEq, true_and, and_true] at h; subst h; exact List.mem_append.mpr (Or.inl hp)
  · rw [h] ; exact List.mem_append.mpr (Or.inl hp)

theorem Node.children_toList {n : Node Ptr} {l : List Ptr} (h : n.toList = ⟨.list, [], l, none⟩) :
    ∀ p ∈ l, p ∈ n.children := by
  intro p hp
  unfold Node.toList at h
  split at h
  · simp only [Node.mk.injEq, true_and, and_true] at h; subst h; exact List.mem_append.mpr (Or.inr hp)
  · rw [h] ; exact List.mem_append.mpr (Or.inr hp)

theorem Node.toDict_has {n : Node Ptr} (hn : NodeOk n) (hne : n.dict ≠ []) : n.toDict = n := by
  rcases hn with rfl | ⟨v, rfl⟩ | ⟨ps, rfl⟩ | ⟨d, rfl, _⟩ <;> simp_all [Node.toDict]

/-- Allocating and touching nothing else. -/
theorem rep_alloc {h : Heap} {n : Node Ptr} {t : Tree} {a : Nat} (hr : Rep h (fun x => x < h.next) t a) :
    Rep { (h.put h.next n) with next := h.next + 1 } (fun x => x < h.next) t a :=
  Rep.mono (fun _ p => p) (fun x hx => by simp [Nat.ne_of_lt hx]) _ _ hr

theorem RepL.keep {h h' : Heap} (w : WF h) {a : Nat} (ha : a < h.next) {ts : List Tree} {ps : List Ptr}
    (hr : RepL h (fun x => x < h.next) ts ps) (hsub : ∀ p ∈ ps, p ∈ (h.node a).children) (hm : h.next ≤ h'.next)
    (hf : ∀ x, x < h.next → x ≠ a → h'.node x = h.node x) : RepL h' (fun x => x < h'.next) ts ps := by
  rw [RepL_iff] at hr ⊢
  refine ⟨hr.1, fun i h1 h2 => ?_⟩
  obtain ⟨b, hb, hrb⟩ := hr.2 i h1 h2
  refine ⟨b, hb, Rep.carry hrb hm ?_⟩
  intro x hx hrx
  obtain ⟨b', hb', hlt, hbn⟩ := w.up a ha _ (hsub (some b) (by rw [← hb]; exact List.getElem_mem _))
  simp only [Option.some.injEq] at hb'; subst hb'
  have := Reach.bounds w hbn hrx
  exact hf x hx (by omega)

theorem RepD.keep {h h' : Heap} (w : WF h) {a : Nat} (ha : a < h.next) {ds : List (Str × Tree)} {d : Dict Ptr}
    (hr : RepD h (fun x => x < h.next) ds d) (hsub : ∀ p ∈ d.map Prod.snd, p ∈ (h.node a).children) (hm : h.next ≤ h'.next)
    (hf : ∀ x, x < h.next → x ≠ a → h'.node x = h.node x) : RepD h' (fun x => x < h'.next) ds d := by
  rw [RepD_iff] at hr ⊢
  exact ⟨hr.1, hr.2.keep w ha hsub hm hf⟩

theorem indexKey_spec {h : Heap} (w : WF h) {a : Nat} {t : Tree} (ht : Rep h (fun x => x < h.next) t a) (k : Str) :
    ∃ b h1 d, Datagram.indexKey a k h = .ok b h1 ∧ h1.node a = ⟨.dict, d, [], none⟩ ∧ Dict.find k d = some (some b) ∧
      Rep h1 (fun x => x < h1.next) ((Dict.find k t.asDict).getD .empty) b ∧
      Good h a h1 (.dict (Dict.insert k ((Dict.find k t.asDict).getD .empty) t.asDict)) := by
  have ha := Rep.mem ht
  obtain ⟨d, hd, htd, hs, hrd⟩ := Rep.asDict ht
  cases hf : Dict.find k t.asDict with
  | some u =>
    obtain ⟨b, hb, hru⟩ := hrd.find_some hf
    have hhas : Dict.has k d = true := by simp [Dict.has, hb]
    have hself : (h.node a).toDict = h.node a := by
      refine Node.toDict_has (w.ok a ha) ?_
      rw [hd]; intro e; rw [e] at hb; simp at hb
    refine ⟨b, h, d, ?_, by rw [← hself, htd], hb, hru, ?_⟩
    · simp only [Datagram.indexKey, Datagram.rawGetKey, M.bind_run, M.get_run, hd, hhas, if_true, on, Node.getKey, hself, hb,
        put_self, M.pure_run]
    · simp only [Option.getD_some]
      rw [Dict.insert_self (Rep.dict_sorted hs hrd) hf]
      refine Good.refl w ⟨ha, d, by rw [← hself, htd], hs, hrd⟩
  | none =>
    have hfd := hrd.find_none hf
    have hhas : Dict.has k d = false := by simp [Dict.has, hfd]
    have wal := w.alloc (n := Node.empty) (Or.inl rfl) rfl
    have hnp := w.alloc_noParent (n := Node.empty) rfl
    have hna : ({ (h.put h.next Node.empty) with next := h.next + 1 } : Heap).node a = h.node a := by
      simp [Nat.ne_of_lt ha]
    obtain ⟨d', hd', _, w2⟩ := wal.setKey (a := a) (b := h.next) (Nat.lt_succ_of_lt ha) ha (Nat.lt_succ_self _) hnp k
    rw [hna, htd] at hd'
    simp only [Node.mk.injEq, true_and, and_true] at hd'
    subst hd'
    refine ⟨h.next, ({ (h.put h.next Node.empty) with next := h.next + 1 } : Heap).put a ⟨.dict, Dict.insert k (some h.next) d, [], none⟩,
      Dict.insert k (some h.next) d, ?_, ?_, by simp, ?_, ?_⟩
    · have hraw : Datagram.rawGetKey a k h = .ok (some h.next) (({ (h.put h.next Node.empty) with next := h.next + 1 } : Heap).put a
          ⟨.dict, Dict.insert k (some h.next) d, [], none⟩) := by
        simp only [Datagram.rawGetKey, M.bind_run, M.get_run, hd, hhas, Bool.false_eq_true, if_false, alloc_run, on]
        rw [hna]
        simp only [Node.getKey, htd, hfd]
      simp only [Datagram.indexKey, M.bind_run, hraw, M.pure_run]
    · simp
    · simp only [Option.getD_none, Rep]
      have : h.next ≠ a := by omega
      exact ⟨by simp, by simp [this, Node.empty]⟩
    · refine Good.one w2 (by simp) ?_ ?_ ?_
      · intro c hc hne; simp [hne, Nat.ne_of_lt hc]
      · intro b hb hm
        simp only [put_node, if_true, children_dict, List.append_nil, List.mem_map] at hm
        obtain ⟨e, he, heq⟩ := hm
        rcases Dict.mem_insert he with rfl | he'
        · simp at heq; omega
        · exact Node.children_toDict htd _ (List.mem_map.mpr ⟨e, he', heq⟩)
      · refine ⟨by simp; omega, Dict.insert k (some h.next) d, by simp, Dict.insert_sorted hs, ?_⟩
        simp only [Option.getD_none]
        refine RepD.insert (RepD.keep w ha hrd (Node.children_toDict htd) (by simp) ?_) ?_
        · intro c hc hne; simp [hne, Nat.ne_of_lt hc]
        · have : h.next ≠ a := by omega
          exact ⟨by simp, by simp [this, Node.empty]⟩

theorem indexIdx_ok {h : Heap} {a : Nat} {t u : Tree} (ht : Rep h (fun x => x < h.next) t a) {i : BitVec 32}
    (hi : t.asList[i.toNat]? = some u) :
    ∃ b ps ts, t = .list ts ∧ Datagram.indexIdx a i h = .ok b h ∧ h.node a = ⟨.list, [], ps, none⟩ ∧ ps[i.toNat]? = some (some b) ∧
      Rep h (fun x => x < h.next) u b := by
  cases t with
  | list ts =>
    obtain ⟨ha, ps, hn, hr⟩ := ht
    simp only [Tree.asList] at hi
    rw [RepL_iff] at hr
    rw [List.getElem?_eq_some_iff] at hi
    obtain ⟨h1, h2⟩ := hi
    obtain ⟨b, hb, hrb⟩ := hr.2 i.toNat h1 (by omega)
    have hp : ps[i.toNat]? = some (some b) := by rw [List.getElem?_eq_getElem (by omega), hb]
    have hself : (h.node a).toList = h.node a := by rw [hn]; simp [Node.toList]
    refine ⟨b, ps, ts, rfl, ?_, hn, hp, h2 ▸ hrb⟩
    have hget : on a (Node.getIdx i) h = .ok (some b) h := by
      simp only [on, Node.getIdx, hself]
      simp only [hn, hp]
      rw [← hn, put_self]
    simp only [Datagram.indexIdx, M.bind_run, hget, M.pure_run]
  | _ => simp [Tree.asList] at hi

/-- Overwriting the object at `a` by a childless one. -/
theorem Good.leaf {h : Heap} (w : WF h) {a : Nat} (ha : a < h.next) {n : Node Ptr} (hn : NodeOk n) (hc : n.children = []) {t : Tree}
    (hr : Rep (h.put a n) (fun x => x < (h.put a n).next) t a) : Good h a (h.put a n) t := by
  refine Good.one (w.put ha hn (by simp [hc]) (by simp [hc])) (Nat.le_refl _) ?_ ?_ hr
  · intro c _ hne; simp [hne]
  · intro b _ hm; simp [hc] at hm

theorem indexIdx_fail {h : Heap} (w : WF h) {a : Nat} {t : Tree} (ht : Rep h (fun x => x < h.next) t a) {i : BitVec 32}
    (hi : t.asList[i.toNat]? = none) :
    ∃ h1, Datagram.indexIdx a i h = .throw (.indexOutOfBounds i.toInt) h1 ∧ Good h a h1 (.list t.asList) := by
  have ha := Rep.mem ht
  obtain ⟨ps, hl, htl, hr⟩ := Rep.asList ht
  have hp : ps[i.toNat]? = none := by
    rw [List.getElem?_eq_none_iff] at hi ⊢
    rw [(RepL_iff.mp hr).1]; exact hi
  refine ⟨h.put a ⟨.list, [], ps, none⟩, ?_, ?_⟩
  · simp only [Datagram.indexIdx, M.bind_run, on, Node.getIdx, htl, hp, Node.excIndex]
  · refine Good.one (w.put ha (Or.inr (Or.inr (Or.inl ⟨_, rfl⟩))) ?_ ?_) (Nat.le_refl _) ?_ ?_ ?_
    · have := w.nodup a ha
      simp only [Node.children, List.map_nil, List.nil_append]
      rw [← hl]; exact (List.nodup_append.mp this).2.1
    · intro p hp'; exact Or.inl (Node.children_toList htl p (by simpa [Node.children] using hp'))
    · intro c _ hne; simp [hne]
    · intro b _ hm; exact Node.children_toList htl _ (by simpa [Node.children] using hm)
    · refine ⟨ha, ps, by simp, ?_⟩
      refine RepL.keep w ha hr (Node.children_toList htl) (Nat.le_refl _) ?_
      intro c _ hne; simp [hne]

/-- What it means for an operation on the document at `b` to have the outcome `r` (new document, exception). -/
def Does (m : M Heap Unit) (h : Heap) (b : Nat) (r : Tree × Option Exn) : Prop :=
  ∃ h', (m h = match r.2 with | none => .ok () h' | some e => .throw e h') ∧ Good h b h' r.1

theorem assignVal_does {h : Heap} (w : WF h) {a : Nat} {t : Tree} (ht : Rep h (fun x => x < h.next) t a) (v : Val) :
    Does (Datagram.assignVal a v) h a (Tree.eSet (.value v) t) := by
  have ha := Rep.mem ht
  refine ⟨h.put a ⟨.value, [], [], some v⟩, ?_, ?_⟩
  · simp only [Datagram.assignVal, on, Node.setValue, M.modify_run, Tree.eSet]
    rcases w.ok a ha with hn | ⟨v, hn⟩ | ⟨ps, hn⟩ | ⟨d, hn, _⟩ <;> simp [hn]
  · exact Good.leaf w ha (Or.inr (Or.inl ⟨_, rfl⟩)) rfl ⟨ha, by simp⟩

theorem clear_does {h : Heap} (w : WF h) {a : Nat} {t : Tree} (ht : Rep h (fun x => x < h.next) t a) :
    Does (Datagram.clear a) h a (Tree.eClear t) := by
  have ha := Rep.mem ht
  cases t with
  | empty =>
    refine ⟨h, ?_, Good.refl w ht⟩
    simp only [Rep] at ht
    simp only [Datagram.clear, on, Node.clear, ht.2, Tree.eClear]; rw [← ht.2, put_self]
  | value v =>
    refine ⟨h, ?_, Good.refl w ht⟩
    simp only [Rep] at ht
    simp only [Datagram.clear, on, Node.clear, ht.2, Tree.eClear]; rw [← ht.2, put_self]
  | list ts =>
    obtain ⟨_, ps, hn, _⟩ := ht
    refine ⟨h.put a ⟨.list, [], [], none⟩, ?_, Good.leaf w ha (Or.inr (Or.inr (Or.inl ⟨_, rfl⟩))) rfl ⟨ha, [], by simp, rfl⟩⟩
    simp only [Datagram.clear, on, Node.clear, hn, Tree.eClear]
  | dict ds =>
    obtain ⟨_, d, hn, _, _⟩ := ht
    refine ⟨h.put a ⟨.dict, [], [], none⟩, ?_, Good.leaf w ha (Or.inr (Or.inr (Or.inr ⟨_, rfl, by simp⟩))) rfl ⟨ha, [], by simp, by simp, rfl⟩⟩
    simp only [Datagram.clear, on, Node.clear, hn, Tree.eClear]

theorem RepL.eraseIdx {h : Heap} {S : Addr → Prop} {ts : List Tree} {ps : List Ptr} (hr : RepL h S ts ps) (i : Nat) :
    RepL h S (ts.eraseIdx i) (ps.eraseIdx i) := by
  induction ts generalizing ps i with
  | nil => simp only [RepL] at hr; subst hr; simp [RepL]
  | cons t ts ih =>
    obtain ⟨b, qs, rfl, hb, hq⟩ := hr
    cases i with
    | zero => simpa using hq
    | succ i => simp only [List.eraseIdx_cons_succ]; exact ⟨b, _, rfl, hb, ih hq i⟩

theorem removeIdx_does {h : Heap} (w : WF h) {a : Nat} {t : Tree} (ht : Rep h (fun x => x < h.next) t a) (i : BitVec 32) :
    Does (Datagram.removeIdx a i) h a (Tree.eRemoveIdx i t) := by
  have ha := Rep.mem ht
  cases t with
  | empty =>
    refine ⟨h, ?_, Good.refl w ht⟩
    simp only [Rep] at ht
    simp [Datagram.removeIdx, on, Node.removeIdx, ht.2, Tree.eRemoveIdx]; rw [← ht.2, put_self]
  | value v =>
    refine ⟨h, ?_, Good.refl w ht⟩
    simp only [Rep] at ht
    simp [Datagram.removeIdx, on, Node.removeIdx, ht.2, Tree.eRemoveIdx]; rw [← ht.2, put_self]
  | dict ds =>
    refine ⟨h, ?_, Good.refl w ht⟩
    obtain ⟨_, d, hn, _, _⟩ := ht
    simp [Datagram.removeIdx, on, Node.removeIdx, hn, Tree.eRemoveIdx]; rw [← hn, put_self]
  | list ts =>
    have ht' := ht
    obtain ⟨_, ps, hn, hr⟩ := ht
    have hlen := (RepL_iff.mp hr).1
    by_cases hi : i.toNat < ts.length
    · refine ⟨h.put a ⟨.list, [], ps.eraseIdx i.toNat, none⟩, ?_, ?_⟩
      · have : ¬ (i.toNat ≥ ps.length) := by omega
        simp only [Datagram.removeIdx, on, Node.removeIdx, hn, Tree.eRemoveIdx, hi, if_true, ne_eq, not_true, if_false, this]
      · simp only [Tree.eRemoveIdx, hi, if_true]
        have hsub : ∀ p ∈ ps.eraseIdx i.toNat, p ∈ (h.node a).children := by
          intro p hp; rw [hn]; simpa [Node.children] using List.mem_of_mem_eraseIdx hp
        refine Good.one (w.put ha (Or.inr (Or.inr (Or.inl ⟨_, rfl⟩))) ?_ ?_) (Nat.le_refl _) ?_ ?_ ?_
        · have := w.nodup a ha
          rw [hn] at this
          simp only [Node.children, List.map_nil, List.nil_append] at this ⊢
          exact this.sublist (List.eraseIdx_sublist _ _)
        · intro p hp'; exact Or.inl (hsub p (by simpa [Node.children] using hp'))
        · intro c _ hne; simp [hne]
        · intro b _ hm; exact hsub _ (by simpa [Node.children] using hm)
        · refine ⟨ha, ps.eraseIdx i.toNat, by simp, ?_⟩
          refine RepL.keep w ha (hr.eraseIdx _) hsub (Nat.le_refl _) ?_
          intro c _ hne; simp [hne]
    · refine ⟨h, ?_, by simpa [Tree.eRemoveIdx, hi] using Good.refl w ht'⟩
      have : i.toNat ≥ ps.length := by omega
      simp only [Datagram.removeIdx, on, Node.removeIdx, hn, Tree.eRemoveIdx, hi, if_true, ne_eq, not_true, if_false, this,
        Node.excIndex]
      rw [← hn, put_self]

theorem removeKey_does {h : Heap} (w : WF h) {a : Nat} {t : Tree} (ht : Rep h (fun x => x < h.next) t a) (k : Str) :
    Does (Datagram.removeKey a k) h a (Tree.eRemoveKey k t) := by
  have ha := Rep.mem ht
  cases t with
  | empty =>
    refine ⟨h, ?_, Good.refl w ht⟩
    simp only [Rep] at ht
    simp [Datagram.removeKey, on, Node.removeKey, ht.2, Tree.eRemoveKey]; rw [← ht.2, put_self]
  | value v =>
    refine ⟨h, ?_, Good.refl w ht⟩
    simp only [Rep] at ht
    simp [Datagram.removeKey, on, Node.removeKey, ht.2, Tree.eRemoveKey]; rw [← ht.2, put_self]
  | list ts =>
    refine ⟨h, ?_, Good.refl w ht⟩
    obtain ⟨_, ps, hn, _⟩ := ht
    simp [Datagram.removeKey, on, Node.removeKey, hn, Tree.eRemoveKey]; rw [← hn, put_self]
  | dict ds =>
    have ht' := ht
    obtain ⟨_, d, hn, hs, hr⟩ := ht
    cases hf : Dict.find k ds with
    | some u =>
      obtain ⟨b, hb, _⟩ := hr.find_some hf
      refine ⟨h.put a ⟨.dict, Dict.erase k d, [], none⟩, ?_, ?_⟩
      · simp [Datagram.removeKey, on, Node.removeKey, hn, Tree.eRemoveKey, hf, hb]
      · simp only [Tree.eRemoveKey, hf, Option.isSome_some, if_true]
        have hsub : ∀ p ∈ (Dict.erase k d).map Prod.snd, p ∈ (h.node a).children := by
          intro p hp; rw [hn]
          rw [List.mem_map] at hp
          obtain ⟨e, he, rfl⟩ := hp
          simp only [Node.children, List.append_nil]
          exact List.mem_map_of_mem (Dict.erase_subset he)
        refine Good.one (w.put ha (Or.inr (Or.inr (Or.inr ⟨_, rfl, Dict.erase_sorted hs⟩))) ?_ ?_) (Nat.le_refl _) ?_ ?_ ?_
        · have := w.nodup a ha
          rw [hn] at this
          simp only [Node.children, List.append_nil] at this ⊢
          exact this.sublist ((Dict.erase_sublist k d).map _)
        · intro p hp'; exact Or.inl (hsub p (by simpa [Node.children] using hp'))
        · intro c _ hne; simp [hne]
        · intro b _ hm; exact hsub _ (by simpa [Node.children] using hm)
        · refine ⟨ha, Dict.erase k d, by simp, Dict.erase_sorted hs, ?_⟩
          refine RepD.keep w ha (hr.erase _) hsub (Nat.le_refl _) ?_
          intro c _ hne; simp [hne]
    | none =>
      have hb := hr.find_none hf
      refine ⟨h, ?_, by simpa [Tree.eRemoveKey, hf] using Good.refl w ht'⟩
      simp [Datagram.removeKey, on, Node.removeKey, hn, Tree.eRemoveKey, hf, hb]
      rw [← hn, put_self]

theorem addNew_does {h : Heap} (w : WF h) {a : Nat} {t : Tree} (ht : Rep h (fun x => x < h.next) t a) {n : Node Ptr} {u : Tree}
    (hn : NodeOk n) (hc : n.children = [])
    (hu : ∀ (h' : Heap) c, h'.node c = n → c < h'.next → Rep h' (fun x => x < h'.next) u c) :
    Does (Datagram.addNew a n) h a (Tree.eAdd u t) := by
  have ha := Rep.mem ht
  obtain ⟨ps, hl, htl, hr⟩ := Rep.asList ht
  have wal := w.alloc (n := n) hn hc
  have hnp := w.alloc_noParent (n := n) hc
  have hna : (h.put h.next n).node a = h.node a := by simp [Nat.ne_of_lt ha]
  obtain ⟨l, hl', w2⟩ := wal.add (a := a) (b := h.next) (Nat.lt_succ_of_lt ha) ha (Nat.lt_succ_self _) hnp
  simp only [hna, htl] at hl'
  simp only [Node.mk.injEq, true_and, and_true] at hl'
  subst hl'
  refine ⟨({ (h.put h.next n) with next := h.next + 1 } : Heap).put a ⟨.list, [], ps ++ [some h.next], none⟩, ?_, ?_⟩
  · simp only [Datagram.addNew, M.bind_run, alloc_run, on, Node.add, M.modify_run, hna, htl, Tree.eAdd]
  · refine Good.one w2 (by simp) ?_ ?_ ?_
    · intro c hc hne; simp [hne, Nat.ne_of_lt hc]
    · intro b hb hm
      simp only [put_node, if_true, Node.children, List.map_nil, List.nil_append, List.mem_append, List.mem_singleton,
        Option.some.injEq] at hm
      rcases hm with hm | hm
      · exact Node.children_toList htl _ hm
      · omega
    · refine ⟨by simp; omega, ps ++ [some h.next], by simp, ?_⟩
      refine RepL.append (RepL.keep w ha hr (Node.children_toList htl) (by simp) ?_) ?_
      · intro c hc hne; simp [hne, Nat.ne_of_lt hc]
      · have : h.next ≠ a := by omega
        exact ⟨h.next, [], rfl, hu _ _ (by simp [this]) (by simp), rfl⟩

/-- `x = y` (copy assignment) makes the document at `x` equal to the one at `y`. -/
theorem assign_does {h : Heap} (w : WF h) {x y : Nat} {t u : Tree} (hx : Rep h (fun z => z < h.next) t x)
    (hy : Rep h (fun z => z < h.next) u y) : Does (Datagram.assign x y) h x (Tree.eSet u t) := by
  have hxn := Rep.mem hx
  have hyn := Rep.mem hy
  obtain ⟨h1, hrun, ⟨w1, hext, _, hcn, hnp⟩, hrep⟩ := copyAll_ok w hyn (fun _ p => p) hy
  have hm : h.next < h1.next := hcn
  have hne : x ≠ h.next := by omega
  have hx1 : x < h1.next := by omega
  have hok := w1.ok h.next hcn
  have hup := w1.up h.next hcn
  refine ⟨(h1.put x (h1.node h.next)).put h.next Node.empty, ?_, ?_⟩
  · simp only [Datagram.assign, M.bind_run, hrun, Datagram.assignFromTemp, M.modify_run, Tree.eSet]
  · have hwf : WF ((h1.put x (h1.node h.next)).put h.next Node.empty) := by
      have wa : WF (h1.put h.next Node.empty) := w1.put hcn (Or.inl rfl) (by simp [Node.empty, Node.children]) (by simp [Node.empty, Node.children])
      have hcomm : (h1.put x (h1.node h.next)).put h.next Node.empty = (h1.put h.next Node.empty).put x (h1.node h.next) := by
        simp only [Heap.put]; congr 1; funext b; by_cases e : b = h.next <;> simp [e, Ne.symm hne]
      rw [hcomm]
      refine wa.put hx1 hok (w1.nodup _ hcn) ?_
      intro p hp
      obtain ⟨b, rfl, hb1, hb2⟩ := hup p hp
      refine Or.inr ⟨b, rfl, by omega, hb2, ?_⟩
      intro z hz hmem
      simp only [put_node, put_next] at hz hmem
      split at hmem
      · simp [Node.empty, Node.children] at hmem
      · rename_i hzn
        exact hzn (w1.parent_unique hz hcn hmem hp)
    refine Good.one hwf (by simp; omega) ?_ ?_ ?_
    · intro c hc hcx
      have : c ≠ h.next := by omega
      simp [this, hcx, hext.2 c hc]
    · intro b hb hmem
      simp only [put_node, hne, if_false, if_true] at hmem
      obtain ⟨b', hb', h2, _⟩ := hup _ hmem
      simp only [Option.some.injEq] at hb'; omega
    · refine Rep.moveRoot (S := Fresh h h1) hrep (by simpa using hx1) (by simp [hne]) ?_
      intro z hz hzn
      have h3 : z ≠ x := by have := hz.1; omega
      exact ⟨by simpa using hz.2, by simp [hzn, h3]⟩

/-- A chain of indexing: either it reaches an object whose document is the addressed part, and every later change there
is the corresponding edit of the whole; or it throws where the specification says so. -/
theorem follow_spec : ∀ (p : List Sel) {h : Heap} (_ : WF h) {a : Nat} {t : Tree} (_ : Rep h (fun x => x < h.next) t a),
    (∃ (b : Nat) (h1 : Heap) (u : Tree) (K : Tree → Tree), follow p a h = .ok b h1 ∧ u = Tree.subAt p t ∧ Rep h1 (fun x => x < h1.next) u b ∧
      Good h a h1 (K u) ∧ (∀ F : Tree.Edit, Tree.editAt p F t = (K (F u).1, (F u).2)) ∧
      ∀ h' t', Good h1 b h' t' → Good h a h' (K t')) ∨
    (∃ e h1 t1, follow p a h = .throw e h1 ∧ Good h a h1 t1 ∧ ∀ F : Tree.Edit, Tree.editAt p F t = (t1, some e)) := by
  intro p
  induction p with
  | nil =>
    intro h w a t ht
    exact Or.inl ⟨a, h, t, id, rfl, rfl, ht, Good.refl w ht, fun F => rfl, fun h' t' g => g⟩
  | cons s p ih =>
    intro h w a t ht
    have ha := Rep.mem ht
    cases s with
    | key k =>
      obtain ⟨b, h1, d, hrun, hn, hf, hrb, g⟩ := indexKey_spec w ht k
      have ha1 : a < h1.next := Nat.lt_of_lt_of_le ha g.mono
      have lift : ∀ h' t', Good h1 b h' t' → Good h a h' (.dict (Dict.insert k t' t.asDict)) := by
        intro h' t' g'
        have g2 := Good.liftKey g.wf ha1 hn hf g.rep g'
        rw [Dict.insert_insert] at g2
        exact Good.trans ha g g2
      rcases ih g.wf hrb with ⟨c, h2, u, K, hr2, hu, hru, g2, hed, hl⟩ | ⟨e, h2, t2, hr2, g2, hed⟩
      · refine Or.inl ⟨c, h2, u, fun v => .dict (Dict.insert k (K v) t.asDict), ?_, ?_, hru, lift _ _ g2, ?_, ?_⟩
        · simp only [follow, M.bind_run, hrun, hr2]
        · simpa only [Tree.subAt] using hu
        · intro F; simp only [Tree.editAt, hed F]
        · intro h' t' g'; exact lift _ _ (hl _ _ g')
      · refine Or.inr ⟨e, h2, .dict (Dict.insert k t2 t.asDict), ?_, lift _ _ g2, ?_⟩
        · simp only [follow, M.bind_run, hrun, hr2]
        · intro F; simp only [Tree.editAt, hed F]
    | idx i =>
      cases hi : t.asList[i.toNat]? with
      | none =>
        obtain ⟨h1, hrun, g⟩ := indexIdx_fail w ht hi
        refine Or.inr ⟨.indexOutOfBounds i.toInt, h1, _, ?_, g, ?_⟩
        · simp only [follow, M.bind_run, hrun]
        · intro F; simp only [Tree.editAt, hi]
      | some u0 =>
        obtain ⟨b, ps, ts, rfl, hrun, hn, hp, hrb⟩ := indexIdx_ok ht hi
        have lift : ∀ h' t', Good h b h' t' → Good h a h' (.list (ts.set i.toNat t')) := by
          intro h' t' g'
          exact Good.liftIdx w ha hn hp ht g'
        rcases ih w hrb with ⟨c, h2, u, K, hr2, hu, hru, g2, hed, hl⟩ | ⟨e, h2, t2, hr2, g2, hed⟩
        · refine Or.inl ⟨c, h2, u, fun v => .list (ts.set i.toNat (K v)), ?_, ?_, hru, lift _ _ g2, ?_, ?_⟩
          · simp only [follow, M.bind_run, hrun, hr2]
          · simp only [Tree.subAt, hi, Option.getD_some]; exact hu
          · intro F; simp only [Tree.editAt, hi, hed F]; simp only [Tree.asList]
          · intro h' t' g'; exact lift _ _ (hl _ _ g')
        · refine Or.inr ⟨e, h2, .list (ts.set i.toNat t2), ?_, lift _ _ g2, ?_⟩
          · simp only [follow, M.bind_run, hrun, hr2]
          · intro F; simp only [Tree.editAt, hi, hed F]; simp only [Tree.asList]

/-- A chain of indexing followed by an operation is the corresponding edit at the position. -/
theorem follow_does {h : Heap} (w : WF h) {a : Nat} {t : Tree} (ht : Rep h (fun x => x < h.next) t a) (p : List Sel)
    (m : Nat → M Heap Unit) (F : Tree.Edit)
    (hm : ∀ h1 b u, WF h1 → Rep h1 (fun x => x < h1.next) u b → h.next ≤ h1.next →
      (∀ c, c < h.next → ¬ Reach h a c → h1.node c = h.node c) → Does (m b) h1 b (F u)) :
    Does (follow p a >>= m) h a (Tree.editAt p F t) := by
  rcases follow_spec p w ht with ⟨b, h1, u, K, hrun, _, hru, g, hed, hl⟩ | ⟨e, h1, t1, hrun, g, hed⟩
  · obtain ⟨h2, hr2, g2⟩ := hm h1 b u g.wf hru g.mono g.frame
    refine ⟨h2, ?_, ?_⟩
    · rw [hed F]; simp only [M.bind_run, hrun, hr2]
    · rw [hed F]; exact hl _ _ g2
  · refine ⟨h1, ?_, ?_⟩
    · rw [hed F]; simp only [M.bind_run, hrun]
    · rw [hed F]; exact g

end LP
