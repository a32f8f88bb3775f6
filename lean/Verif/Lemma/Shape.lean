import Verif.Lemma.Json
/-! Deserialisation and JSON import keep the object graph a forest. -/
namespace LP
open Heap Tree

/-- The computation makes a new root out of new objects only. -/
def Shaped (m : M Heap Addr) : Prop := ∀ c h h', WF h → m h = .ok c h' → CopyShape h c h'

/-- What a store into a fresh container must guarantee. -/
def Stores {α : Type} (store : α → Nat → M (Node Ptr) Unit) : Prop :=
  ∀ (c : Nat) x d, ∀ g : Heap, WF g → c < g.next → c < d → d < g.next → NoParent g d → NoParent g c →
    ∃ m, store x d (g.node c) = .ok () m ∧ WF (g.put c m) ∧ some c ∉ m.children

theorem stores_setKey {α : Type} (key : α → Str) : Stores (fun x d => Node.setKey (key x) (some d)) := by
  intro c x d g wg hl hd1 hd2 hnp hnpc
  obtain ⟨dd, h1, h2, h3⟩ := wg.setKey hl hd1 hd2 hnp (key x)
  refine ⟨_, by simp only [Node.setKey, M.modify_run, h1], h3, ?_⟩
  intro hm
  simp only [Node.children, List.append_nil, List.mem_map] at hm
  obtain ⟨e, he, hee⟩ := hm
  rcases Dict.mem_insert he with rfl | he
  · simp only [Option.some.injEq] at hee; omega
  · have hmem : e.2 ∈ (g.node c).children := by
      obtain ⟨d', hd', _, hcase⟩ := toDict_ok (wg.ok c hl)
      rw [h1] at hd'
      simp only [Node.mk.injEq, true_and, and_true] at hd'
      subst hd'
      rcases hcase with ⟨_, h2⟩ | ⟨_, h2⟩
      · simp only [Node.children, List.mem_append]; exact Or.inl (by rw [h2]; exact List.mem_map_of_mem he)
      · subst h2; simp at he
    rw [hee] at hmem
    exact hnpc c hl hmem

theorem stores_add {α : Type} : Stores (fun (_ : α) d => Node.add (some d)) := by
  intro c _ d g wg hl hd1 hd2 hnp hnpc
  obtain ⟨l, h1, h3⟩ := wg.add hl hd1 hd2 hnp
  refine ⟨_, by simp only [Node.add, M.modify_run, h1], h3, ?_⟩
  intro hm
  simp only [Node.children, List.map_nil, List.nil_append, List.mem_append, List.mem_singleton, Option.some.injEq] at hm
  rcases hm with hm | hm
  · have hmem : some c ∈ (g.node c).children := by
      obtain ⟨d', hd', hcase⟩ := toList_ok (wg.ok c hl)
      rw [h1] at hd'
      simp only [Node.mk.injEq, true_and, and_true] at hd'
      subst hd'
      rcases hcase with ⟨_, h2⟩ | ⟨_, h2⟩
      · simp only [Node.children, List.mem_append]; exact Or.inr (by rw [h2]; exact hm)
      · subst h2; simp at hm
    exact hnpc c hl hmem
  · omega

/-- The state after allocating a fresh Empty. -/
theorem start_shape {h : Heap} (w : WF h) : CopyShape h h.next { (h.put h.next Node.empty) with next := h.next + 1 } := by
  refine ⟨w.alloc (Or.inl rfl) rfl, ⟨by simp, ?_⟩, rfl, by simp, w.alloc_noParent rfl⟩
  intro b hb; simp [Nat.ne_of_lt hb]

theorem loop_shape {α : Type} (f : α → M Heap Addr) (store : α → Nat → M (Node Ptr) Unit) (hs : Stores store) (h : Heap) :
    ∀ (xs : List α) (g g' : Heap), (∀ x ∈ xs, Shaped (f x)) → CopyShape h h.next g →
      M.each (fun x => do let d ← f x; on h.next (store x d)) xs g = .ok () g' → CopyShape h h.next g' := by
  intro xs
  induction xs with
  | nil => intro g g' _ hg he; simp only [M.each_nil, Res.ok.injEq, true_and] at he; subst he; exact hg
  | cons x xs ihx =>
    intro g g' hp hg he
    obtain ⟨wg, hx, _, hl, hnp⟩ := hg
    simp only [M.each_cons, M.bind_run] at he
    cases hcp : f x g with
    | throw e s => simp [hcp] at he
    | ub => simp [hcp] at he
    | fuel => simp [hcp] at he
    | ok d g1 =>
      simp only [hcp] at he
      obtain ⟨w1, e1, hd1, hd2, hd3⟩ := hp x (by simp) d g g1 wg hcp
      have hnp1 : NoParent g1 h.next := by
        intro y hy hmem
        by_cases hyg : y < g.next
        · rw [e1.2 y hyg] at hmem; exact hnp y hyg hmem
        · obtain ⟨z, hz, hz1, hz2⟩ := w1.up y hy _ hmem
          simp only [Option.some.injEq] at hz; omega
      obtain ⟨m, hm, wm, hmc⟩ := hs h.next x d g1 w1 (by have := e1.1; omega) (by omega) hd2 hd3 hnp1
      simp only [on, hm] at he
      refine ihx (g1.put h.next m) g' (fun y hy => hp y (by simp [hy])) ⟨wm, ?_, rfl, by simp only [put_next]; have := e1.1; omega, hnp1.put hmc⟩ he
      refine ⟨by simp only [put_next]; have := e1.1; have := hx.1; omega, ?_⟩
      intro y hy
      simp only [put_node, Nat.ne_of_lt hy, if_false]
      rw [e1.2 y (by omega), hx.2 y hy]

theorem fill_shape {α : Type} (f : α → M Heap Addr) (store : α → Nat → M (Node Ptr) Unit) (hs : Stores store) (xs : List α)
    (hf : ∀ x ∈ xs, Shaped (f x)) :
    Shaped (do let c ← alloc Node.empty; M.each (fun x => do let d ← f x; on c (store x d)) xs; pure c) := by
  intro c h h' w he
  rw [M.bind_run, alloc_run] at he
  simp only at he
  rw [M.bind_run] at he
  split at he
  · rename_i u g' hg
    simp only [M.pure_run, Res.ok.injEq] at he
    obtain ⟨rfl, rfl⟩ := he
    exact loop_shape f store hs h xs _ g' hf (start_shape w) hg
  · cases he
  · cases he
  · cases he

theorem empty_shape : Shaped (do let c ← alloc Node.empty; pure c) := by
  intro c h h' w he
  simp only [M.bind_run, alloc_run, M.pure_run, Res.ok.injEq] at he
  obtain ⟨rfl, rfl⟩ := he
  exact start_shape w

theorem value_shape (v : Val) : Shaped (do let c ← alloc Node.empty; on c (Node.setValue v); pure c) := by
  intro c h h' w he
  have e : (do let c ← alloc Node.empty; on c (Node.setValue v); pure c : M Heap Addr) h =
      .ok h.next { (h.put h.next ⟨.value, [], [], some v⟩) with next := h.next + 1 } := by
    simp [alloc_run, on, Node.setValue, put, Node.empty]
    funext b; split <;> rfl
  rw [e, Res.ok.injEq] at he
  obtain ⟨rfl, rfl⟩ := he
  refine ⟨w.alloc (Or.inr (Or.inl ⟨v, rfl⟩)) rfl, ⟨by simp, ?_⟩, rfl, by simp, w.alloc_noParent rfl⟩
  intro b hb; simp [Nat.ne_of_lt hb]

theorem ub_shape : Shaped (do let c ← alloc Node.empty; (M.ub : M Heap Unit); pure c) := by
  intro c h h' w he
  simp [alloc_run] at he

theorem deserialize_shape : ∀ (n : Nat) (f : FB), Shaped (deserialize n f) := by
  intro n
  induction n with
  | zero => intro f c h h' w he; simp [deserialize] at he
  | succ n ih =>
    intro f
    obtain ⟨dt, vt, s, i, d, b, l, k, c⟩ := f
    by_cases h1 : dt = 1
    · subst h1
      by_cases v0 : vt = 0
      · subst v0
        cases s with
        | none => exact ub_shape
        | some s => exact value_shape _
      by_cases v2 : vt = 2
      · subst v2; exact value_shape _
      by_cases v1 : vt = 1
      · subst v1; exact value_shape _
      by_cases v3 : vt = 3
      · subst v3; exact value_shape _
      simp only [deserialize, v0, v1, v2, v3, if_true, if_false]; exact empty_shape
    by_cases h2 : dt = 2
    · subst h2
      cases l with
      | none => exact ub_shape
      | some l => exact fill_shape (deserialize n) (fun _ d => Node.add (some d)) stores_add l (fun x _ => ih x)
    by_cases h3 : dt = 3
    · subst h3
      cases k with
      | none => exact ub_shape
      | some k =>
      cases c with
      | none => exact ub_shape
      | some c => exact fill_shape (fun kx => deserialize n kx.2) (fun kx d => Node.setKey kx.1 (some d)) (stores_setKey Prod.fst) (k.zip c) (fun x _ => ih x.2)
    simp only [deserialize, h1, h2, h3, if_false]; exact empty_shape

theorem parse_shape : ∀ (n : Nat) (j : Json), Shaped (do let c ← alloc Node.empty; parseJson n j c; pure c) := by
  intro n
  induction n with
  | zero => intro f c h h' w he; simp [parseJson, alloc_run] at he
  | succ n ih =>
    intro j
    cases j with
    | null => exact empty_shape
    | bool b => exact value_shape _
    | double b => exact value_shape _
    | int b => exact value_shape _
    | string b => exact value_shape _
    | array js => exact fill_shape (fun x => do let c ← alloc Node.empty; parseJson n x c; pure c) (fun _ d => Node.add (some d)) stores_add js (fun x _ => ih x)
    | object ms =>
      exact fill_shape (fun (x : Str × Json) => do let c ← alloc Node.empty; parseJson n x.2 c; pure c)
        (fun (kx : Str × Json) d => Node.setKey (Json.cstr kx.1) (some d)) (stores_setKey fun (kx : Str × Json) => Json.cstr kx.1) ms (fun x _ => ih x.2)

/-- Reading a table, in full: either undefined, or a new tree with the meaning of the table, as a new root of the forest. -/
theorem deserialize_spec (f : FB) : (Broken f ∧ ∀ h, Datagram.deserialize f h = .ub) ∨ (¬ Broken f ∧ ∃ t, Means f t ∧
    ∀ h, ∃ a h', Datagram.deserialize f h = .ok a h' ∧ Ext h h' ∧ Rep h' (Fresh h h') t a ∧ (WF h → CopyShape h a h')) := by
  rcases deserialize_main f.depth f (Nat.le_refl _) with h | ⟨h1, t, h2, h3⟩
  · exact .inl h
  · refine .inr ⟨h1, t, h2, fun h => ?_⟩
    obtain ⟨a, h', e1, e2, e3⟩ := h3 h
    exact ⟨a, h', e1, e2, e3, fun w => deserialize_shape _ _ _ _ _ w e1⟩

theorem json_spec (tok : Str → Option Json) (text : Str) : ∃ t, (match tok text with | some j => JsonMeans j t | none => t = .empty) ∧
    ∀ h, ∃ a h', Datagram.deserializeJson tok text h = .ok a h' ∧ Ext h h' ∧ Rep h' (Fresh h h') t a ∧ (WF h → CopyShape h a h') := by
  unfold Datagram.deserializeJson
  cases tok text with
  | none =>
    refine ⟨.empty, rfl, fun h => ?_⟩
    obtain ⟨a, h', e1, e2, e3⟩ := builds_empty h
    exact ⟨a, h', e1, e2, e3, fun w => empty_shape _ _ _ w e1⟩
  | some j =>
    obtain ⟨t, ht, hb⟩ := parse_main j.depth j (Nat.le_refl _)
    refine ⟨t, ht, fun h => ?_⟩
    obtain ⟨a, h', e1, e2, e3⟩ := hb h
    exact ⟨a, h', e1, e2, e3, fun w => parse_shape _ _ _ _ _ w e1⟩

end LP
