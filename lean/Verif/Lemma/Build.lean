import Verif.Lemma.Tree
/-! Computations that build a fresh tree, and loops that fill a container with fresh trees. -/
namespace LP
open Heap

/-- Heap extension: nothing allocated before is changed. -/
def Ext (h h' : Heap) : Prop := h.next ≤ h'.next ∧ ∀ a, a < h.next → h'.node a = h.node a

theorem Ext.refl (h : Heap) : Ext h h := ⟨Nat.le_refl _, fun _ _ => rfl⟩

theorem Ext.trans {h h' h'' : Heap} (h1 : Ext h h') (h2 : Ext h' h'') : Ext h h'' :=
  ⟨Nat.le_trans h1.1 h2.1, fun a ha => by rw [h2.2 a (Nat.lt_of_lt_of_le ha h1.1), h1.2 a ha]⟩

/-- The addresses allocated between two heaps. -/
def Fresh (h h' : Heap) : Addr → Prop := fun a => h.next ≤ a ∧ a < h'.next

/-- Started in `h`, `m` returns the address of a new tree `t`, all of it newly allocated. -/
def Builds (m : M Heap Addr) (h : Heap) (t : Tree) : Prop :=
  ∃ a h', m h = .ok a h' ∧ Ext h h' ∧ Rep h' (Fresh h h') t a

@[simp] theorem put_node (h : Heap) (a b : Addr) (n : Node Ptr) :
    (h.put a n).node b = if b = a then n else h.node b := rfl
@[simp] theorem put_next (h : Heap) (a : Addr) (n : Node Ptr) : (h.put a n).next = h.next := rfl
@[simp] theorem deref_some (a : Addr) (h : Heap) : deref (some a) h = .ok a h := rfl
@[simp] theorem deref_none (h : Heap) : deref none h = .ub := rfl
theorem alloc_run (n : Node Ptr) (h : Heap) :
    alloc n h = .ok h.next { (h.put h.next n) with next := h.next + 1 } := rfl

/-- Filling a list object `c` with freshly built children. -/
theorem each_add {α : Type} (f : α → M Heap Addr) (c lo : Addr) (h0 : Heap) (hlo : lo ≤ c) :
    ∀ (xs : List α) (ts ts0 : List Tree) (h : Heap) (ps0 : List Ptr),
      c < h.next → (∀ a, a < lo → h.node a = h0.node a) →
      (h.node c).toList = ⟨.list, [], ps0, none⟩ →
      RepL h (fun x => c < x ∧ x < h.next) ts0 ps0 →
      xs.length = ts.length →
      (∀ i (h1 : i < xs.length) (h2 : i < ts.length) (h'' : Heap), lo ≤ h''.next → (∀ a, a < lo → h''.node a = h0.node a) →
        Builds (f xs[i]) h'' ts[i]) →
      ∃ h' ps, M.each (fun x => do let d ← f x; on c (Node.add (some d))) xs h = .ok () h' ∧
        h.next ≤ h'.next ∧ (∀ a, a < h.next → a ≠ c → h'.node a = h.node a) ∧
        (xs = [] → h'.node c = h.node c) ∧ (xs ≠ [] → h'.node c = ⟨.list, [], ps, none⟩) ∧
        (h'.node c).toList = ⟨.list, [], ps, none⟩ ∧
        RepL h' (fun x => c < x ∧ x < h'.next) (ts0 ++ ts) ps := by
  intro xs
  induction xs with
  | nil =>
    intro ts ts0 h ps0 hc hold hn hr hl hb
    have : ts = [] := by cases ts <;> simp_all
    subst this
    exact ⟨h, ps0, rfl, Nat.le_refl _, fun _ _ _ => rfl, fun _ => rfl, fun h => absurd rfl h, hn, by simpa using hr⟩
  | cons x xs ih =>
    intro ts ts0 h ps0 hc hold hn hr hl hb
    cases ts with
    | nil => simp at hl
    | cons t ts =>
      obtain ⟨d, h1, hd, hext, hrep⟩ := hb 0 (by simp) (by simp) h (by omega) hold
      simp only [List.getElem_cons_zero] at hd hrep
      have hc1 : h1.node c = h.node c := hext.2 c hc
      have hcn : ((h1.node c).toList) = ⟨.list, [], ps0, none⟩ := by rw [hc1, hn]
      let h2 : Heap := h1.put c ⟨.list, [], ps0 ++ [some d], none⟩
      have hstep : on c (Node.add (some d)) h1 = .ok () h2 := by
        simp [on, Node.add, hcn, h2]
      have hle := hext.1
      obtain ⟨h', ps, he, hnx, hun, _, hne, htl, hrl⟩ := ih ts (ts0 ++ [t]) h2 (ps0 ++ [some d])
        (by simp only [h2, put_next]; omega)
        (by
          intro a ha
          have hac : a ≠ c := by omega
          simp only [h2, put_node, hac, if_false]
          rw [hext.2 a (by omega), hold a ha])
        (by simp [h2, Node.toList])
        (by
          refine RepL.append ?_ ?_
          · refine RepL.mono ?_ ?_ hr
            · intro a ⟨ha, hb⟩; exact ⟨ha, by simp only [h2, put_next]; omega⟩
            · intro a ⟨ha, hb⟩
              have hac : a ≠ c := by omega
              simp only [h2, put_node, hac, if_false]
              rw [hext.2 a (by omega)]
          · refine ⟨d, [], rfl, ?_, rfl⟩
            refine Rep.mono ?_ ?_ _ _ hrep
            · intro a ⟨ha, hb⟩; exact ⟨by omega, by simp only [h2, put_next]; omega⟩
            · intro a ⟨ha, hb⟩
              have hac : a ≠ c := by omega
              simp only [h2, put_node, hac, if_false])
        (by simpa using hl)
        (by
          intro i h1 h2
          have := hb (i + 1) (by simpa using h1) (by simpa using h2)
          simpa using this)
      refine ⟨h', ps, ?_, ?_, ?_, by simp, ?_, htl, by simpa using hrl⟩
      · simp only [M.each_cons, M.bind_run, hd, hstep]; exact he
      · simp only [h2, put_next] at hnx; omega
      · intro a ha hac
        rw [hun a (by simp only [h2, put_next]; omega) hac]
        simp only [h2, put_node, hac, if_false]
        exact hext.2 a ha
      · intro _
        by_cases hxs : xs = []
        · subst hxs
          simp only [M.each_nil, Res.ok.injEq, true_and] at he
          subst he
          simp only [h2, put_node, if_true] at htl ⊢
          simp only [Node.toList, ne_eq, not_true_eq_false, if_false] at htl
          exact htl
        · exact hne hxs

/-- Filling a dictionary object `c` with freshly built children. -/
theorem each_setKey {α : Type} (key : α → Str) (f : α → M Heap Addr) (c lo : Addr) (h0 : Heap) (hlo : lo ≤ c) :
    ∀ (xs : List α) (ts : List Tree) (ds0 : Dict Tree) (h : Heap) (d0 : Dict Ptr),
      c < h.next → (∀ a, a < lo → h.node a = h0.node a) →
      (h.node c).toDict = ⟨.dict, d0, [], none⟩ → d0.Sorted →
      RepD h (fun x => c < x ∧ x < h.next) ds0 d0 →
      xs.length = ts.length →
      (∀ i (h1 : i < xs.length) (h2 : i < ts.length) (h'' : Heap), lo ≤ h''.next → (∀ a, a < lo → h''.node a = h0.node a) →
        Builds (f xs[i]) h'' ts[i]) →
      ∃ h' d, M.each (fun x => do let p ← f x; on c (Node.setKey (key x) (some p))) xs h = .ok () h' ∧
        h.next ≤ h'.next ∧ (∀ a, a < h.next → a ≠ c → h'.node a = h.node a) ∧
        (xs = [] → h'.node c = h.node c) ∧ (xs ≠ [] → h'.node c = ⟨.dict, d, [], none⟩) ∧
        (h'.node c).toDict = ⟨.dict, d, [], none⟩ ∧ d.Sorted ∧
        RepD h' (fun x => c < x ∧ x < h'.next) (Dict.insertAll ds0 ((xs.map key).zip ts)) d := by
  intro xs
  induction xs with
  | nil =>
    intro ts ts0 h ps0 hc hold hn hsd hr hl hb
    have : ts = [] := by cases ts <;> simp_all
    subst this
    exact ⟨h, ps0, rfl, Nat.le_refl _, fun _ _ _ => rfl, fun _ => rfl, fun h => absurd rfl h, hn, hsd, by simpa [Dict.insertAll] using hr⟩
  | cons x xs ih =>
    intro ts ds0 h d0 hc hold hn hsd hr hl hb
    cases ts with
    | nil => simp at hl
    | cons t ts =>
      obtain ⟨d, h1, hd, hext, hrep⟩ := hb 0 (by simp) (by simp) h (by omega) hold
      simp only [List.getElem_cons_zero] at hd hrep
      have hc1 : h1.node c = h.node c := hext.2 c hc
      have hcn : ((h1.node c).toDict) = ⟨.dict, d0, [], none⟩ := by rw [hc1, hn]
      let h2 : Heap := h1.put c ⟨.dict, Dict.insert (key x) (some d) d0, [], none⟩
      have hstep : on c (Node.setKey (key x) (some d)) h1 = .ok () h2 := by
        simp [on, Node.setKey, hcn, h2]
      have hle := hext.1
      obtain ⟨h', e, he, hnx, hun, _, hne, htl, hse, hrl⟩ := ih ts (Dict.insert (key x) t ds0) h2 (Dict.insert (key x) (some d) d0)
        (by simp only [h2, put_next]; omega)
        (by
          intro a ha
          have hac : a ≠ c := by omega
          simp only [h2, put_node, hac, if_false]
          rw [hext.2 a (by omega), hold a ha])
        (by simp [h2, Node.toDict])
        (Dict.insert_sorted hsd)
        (by
          refine RepD.insert ?_ ?_
          · refine RepD.mono ?_ ?_ hr
            · intro a ⟨ha, hb⟩; exact ⟨ha, by simp only [h2, put_next]; omega⟩
            · intro a ⟨ha, hb⟩
              have hac : a ≠ c := by omega
              simp only [h2, put_node, hac, if_false]
              rw [hext.2 a (by omega)]
          · refine Rep.mono ?_ ?_ _ _ hrep
            · intro a ⟨ha, hb⟩; exact ⟨by omega, by simp only [h2, put_next]; omega⟩
            · intro a ⟨ha, hb⟩
              have hac : a ≠ c := by omega
              simp only [h2, put_node, hac, if_false])
        (by simpa using hl)
        (by
          intro i h1 h2
          have := hb (i + 1) (by simpa using h1) (by simpa using h2)
          simpa using this)
      refine ⟨h', e, ?_, ?_, ?_, by simp, ?_, htl, hse, by simpa [Dict.insertAll] using hrl⟩
      · simp only [M.each_cons, M.bind_run, hd, hstep]; exact he
      · simp only [h2, put_next] at hnx; omega
      · intro a ha hac
        rw [hun a (by simp only [h2, put_next]; omega) hac]
        simp only [h2, put_node, hac, if_false]
        exact hext.2 a ha
      · intro _
        by_cases hxs : xs = []
        · subst hxs
          simp only [M.each_nil, Res.ok.injEq, true_and] at he
          subst he
          simp only [h2, put_node, if_true] at htl ⊢
          simp only [Node.toDict, ne_eq, not_true_eq_false, if_false] at htl
          exact htl
        · exact hne hxs

theorem zip_fst_snd {α β : Type} : ∀ (l : List (α × β)), (l.map Prod.fst).zip (l.map Prod.snd) = l
  | [] => rfl
  | (a, b) :: l => by simp [zip_fst_snd l]

/-- `Copy` builds a fresh tree equal to the one denoted by its argument. -/
theorem copy_builds : ∀ (t : Tree) (n : Nat) (h : Heap) (S : Addr → Prop) (a : Addr), t.depth ≤ n →
    (∀ x, S x → x < h.next) → Rep h S t a → Builds (copy n a) h t := by
  intro t
  induction t using Tree.ind with
  | empty =>
    intro n h S a hn hS hr
    obtain ⟨n, rfl⟩ : ∃ m, n = m + 1 := ⟨n - 1, by simp only [Tree.depth] at hn; omega⟩
    have ha := hS _ hr.1
    refine ⟨h.next, { (h.put h.next ⟨.empty, [], [], none⟩) with next := h.next + 1 }, ?_, ⟨by simp, ?_⟩, ?_⟩
    · simp [copy, alloc_run, hr.2, Nat.ne_of_lt ha, put, Node.empty]
      funext b; split <;> rfl
    · intro b hb; simp [Nat.ne_of_lt hb]
    · exact ⟨⟨Nat.le_refl _, by simp⟩, by simp⟩
  | value v =>
    intro n h S a hn hS hr
    obtain ⟨n, rfl⟩ : ∃ m, n = m + 1 := ⟨n - 1, by simp only [Tree.depth] at hn; omega⟩
    have ha := hS _ hr.1
    refine ⟨h.next, { (h.put h.next ⟨.value, [], [], some v⟩) with next := h.next + 1 }, ?_, ⟨by simp, ?_⟩, ?_⟩
    · simp [copy, alloc_run, hr.2, Nat.ne_of_lt ha, put, Node.empty, on, Node.assignData]
      funext b; split <;> rfl
    · intro b hb; simp [Nat.ne_of_lt hb]
    · exact ⟨⟨Nat.le_refl _, by simp⟩, by simp⟩
  | list ts ih =>
    intro n h S a hn hS hr
    obtain ⟨n, rfl⟩ : ∃ m, n = m + 1 := ⟨n - 1, by simp only [Tree.depth] at hn; omega⟩
    simp only [Tree.depth] at hn
    obtain ⟨hSa, ps, hp, hl⟩ := hr
    have ha := hS _ hSa
    have hlen := (RepL_iff.mp hl).1
    let h1 : Heap := { (h.put h.next ⟨.list, [], [], none⟩) with next := h.next + 1 }
    obtain ⟨h', qs, he, hnx, hun, he0, hne, _, hrl⟩ := each_add (fun p => deref p >>= copy n) h.next h.next h (Nat.le_refl _)
      ps ts [] h1 [] (by simp [h1]) (by intro b hb; simp [h1, Nat.ne_of_lt hb]) (by simp [h1, Node.toList])
      (by simp [RepL]) hlen
      (by
        intro i h1 h2 h'' hle hold
        obtain ⟨b, hb, hrb⟩ := (RepL_iff.mp hl).2 i h2 h1
        have := ih ts[i] (List.getElem_mem h2) n h'' S b
          (by have := Tree.depth_mem_list (List.getElem_mem h2); omega)
          (fun x hx => Nat.lt_of_lt_of_le (hS x hx) hle)
          (Rep.mono (fun _ h => h) (fun x hx => hold x (hS x hx)) _ _ hrb)
        obtain ⟨c, h3, h4, h5, h6⟩ := this
        exact ⟨c, h3, by simp [hb, h4], h5, h6⟩)
    have hcn : h'.node h.next = ⟨.list, [], qs, none⟩ := by
      by_cases hps : ps = []
      · subst hps
        simp only [M.each_nil, Res.ok.injEq, true_and] at he
        subst he
        have : ts = [] := by cases ts <;> simp_all
        subst this
        simp only [List.nil_append, RepL] at hrl
        subst hrl
        simp [h1]
      · exact hne hps
    refine ⟨h.next, h', ?_, ⟨?_, ?_⟩, ?_, qs, hcn, ?_⟩
    · have hst : (⟨h.next + 1, fun b => if b = h.next then ⟨.list, [], [], none⟩ else h.node b⟩ : Heap) = h1 := rfl
      simp only [copy, M.bind_run, alloc_run, M.get_run, M.modify_run]
      simp only [put, Nat.ne_of_lt ha, if_false, hp]
      have : (fun b => if b = h.next then ({ ty := Ty.list, dict := Node.empty.dict, list := (Node.empty (P := Ptr)).list, value := (Node.empty (P := Ptr)).value } : Node Ptr)
          else if b = h.next then Node.empty else h.node b) = fun b => if b = h.next then ⟨.list, [], [], none⟩ else h.node b := by
        funext b; split <;> rfl
      simp only [if_true, this, hst]
      have he' := he
      simp only [M.bind_run] at he' ⊢
      rw [he']; rfl
    · simp only [h1] at hnx; omega
    · intro b hb
      rw [hun b (by simp only [h1]; omega) (Nat.ne_of_lt hb)]
      simp [h1, Nat.ne_of_lt hb]
    · exact ⟨Nat.le_refl _, by simp only [h1] at hnx; omega⟩
    · refine RepL.mono ?_ (fun _ _ => rfl) hrl
      intro x ⟨h1, h2⟩; exact ⟨Nat.le_of_lt h1, h2⟩
  | dict ds ih =>
    intro n h S a hn hS hr
    obtain ⟨n, rfl⟩ : ∃ m, n = m + 1 := ⟨n - 1, by simp only [Tree.depth] at hn; omega⟩
    simp only [Tree.depth] at hn
    obtain ⟨hSa, d, hp, hsd, hl⟩ := hr
    have ha := hS _ hSa
    have hl' := RepD_iff.mp hl
    have hlen := (RepL_iff.mp hl'.2).1
    simp only [List.length_map] at hlen
    let h1 : Heap := { (h.put h.next ⟨.dict, [], [], none⟩) with next := h.next + 1 }
    obtain ⟨h', e, he, hnx, hun, he0, hne, _, hse, hrl⟩ := each_setKey Prod.fst (fun (kp : Str × Ptr) => deref kp.2 >>= copy n) h.next h.next h (Nat.le_refl _)
      d (ds.map Prod.snd) [] h1 [] (by simp [h1]) (by intro b hb; simp [h1, Nat.ne_of_lt hb]) (by simp [h1, Node.toDict])
      Dict.sorted_nil (by simp [RepD]) (by simpa using hlen)
      (by
        intro i h1 h2 h'' hle hold
        obtain ⟨b, hb, hrb⟩ := (RepL_iff.mp hl'.2).2 i h2 (by simpa using h1)
        have h2' : i < ds.length := by simpa using h2
        simp only [List.getElem_map] at hb hrb
        have := ih ds[i] (List.getElem_mem h2') n h'' S b
          (by have := Tree.depth_mem_dict (List.getElem_mem h2'); omega)
          (fun x hx => Nat.lt_of_lt_of_le (hS x hx) hle)
          (Rep.mono (fun _ h => h) (fun x hx => hold x (hS x hx)) _ _ hrb)
        obtain ⟨c, h3, h4, h5, h6⟩ := this
        exact ⟨c, h3, by simp [hb, h4], h5, by simpa using h6⟩)
    have hcn : h'.node h.next = ⟨.dict, e, [], none⟩ := by
      by_cases hps : d = []
      · subst hps
        simp only [M.each_nil, Res.ok.injEq, true_and] at he
        subst he
        have : ds = [] := by cases ds <;> simp_all
        subst this
        simp only [List.map_nil, List.zip_nil_left, Dict.insertAll, List.foldl_nil, RepD] at hrl
        subst hrl
        simp [h1]
      · exact hne hps
    have hins : Dict.insertAll [] ((d.map Prod.fst).zip (ds.map Prod.snd)) = ds := by
      rw [hl'.1, zip_fst_snd, Dict.insertAll_of_sorted (d := [])]
      · simp
      · simpa using Dict.sorted_of_keys hl'.1 hsd
    rw [hins] at hrl
    refine ⟨h.next, h', ?_, ⟨?_, ?_⟩, ?_, e, hcn, hse, ?_⟩
    · have hst : (⟨h.next + 1, fun b => if b = h.next then ⟨.dict, [], [], none⟩ else h.node b⟩ : Heap) = h1 := rfl
      simp only [copy, M.bind_run, alloc_run, M.get_run, M.modify_run]
      simp only [put, Nat.ne_of_lt ha, if_false, hp]
      have : (fun b => if b = h.next then ({ ty := Ty.dict, dict := Node.empty.dict, list := (Node.empty (P := Ptr)).list, value := (Node.empty (P := Ptr)).value } : Node Ptr)
          else if b = h.next then Node.empty else h.node b) = fun b => if b = h.next then ⟨.dict, [], [], none⟩ else h.node b := by
        funext b; split <;> rfl
      simp only [if_true, this, hst]
      have he' := he
      simp only [M.bind_run] at he' ⊢
      rw [he']; rfl
    · simp only [h1] at hnx; omega
    · intro b hb
      rw [hun b (by simp only [h1]; omega) (Nat.ne_of_lt hb)]
      simp [h1, Nat.ne_of_lt hb]
    · exact ⟨Nat.le_refl _, by simp only [h1] at hnx; omega⟩
    · refine RepD.mono ?_ (fun _ _ => rfl) hrl
      intro x ⟨h1, h2⟩; exact ⟨Nat.le_of_lt h1, h2⟩

end LP
