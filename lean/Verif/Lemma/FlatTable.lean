import Verif.Lemma.FlatParts
/-! # Tables: the fields that are added are found -/
namespace LP.Flat
namespace Builder

/-- The vtable offset of a field. -/
def Slot.vo : Slot → Nat
  | .scalar vo _ _ => vo
  | .offset vo _ => vo

/-- The field has a size the builder can align, and refers to something written. -/
def Slot.Fits (m : Nat) : Slot → Prop
  | .scalar _ n _ => 0 < n ∧ n ≤ 8
  | .offset _ o => o ≤ m

/-- The field is where the list says, unless it was left out. -/
def Placed (b : Bytes) (fs : List (Nat × Nat)) : Slot → Prop
  | .scalar vo n v => (v = 0 ∧ fs.lookup vo = none) ∨ (v ≠ 0 ∧ ∃ e, fs.lookup vo = some e ∧ At b e (put n v) ∧ e % n = 0)
  | .offset vo o => (o = 0 ∧ fs.lookup vo = none) ∨ (o ≠ 0 ∧ ∃ e, fs.lookup vo = some e ∧ At b e (put 4 (e - o)) ∧ o ≤ e ∧ e % 4 = 0)

theorem Placed.ext {b b' : Bytes} (h : Ext b b') {fs : List (Nat × Nat)} {s : Slot} (hp : Placed b fs s) : Placed b' fs s := by
  cases s with
  | scalar vo n v =>
    rcases hp with hp | ⟨h1, e, h2, h3, h4⟩
    · exact .inl hp
    · exact .inr ⟨h1, e, h2, h.at' h3, h4⟩
  | offset vo o =>
    rcases hp with hp | ⟨h1, e, h2, h3, h4⟩
    · exact .inl hp
    · exact .inr ⟨h1, e, h2, h.at' h3, h4⟩

theorem Placed.lookup {b : Bytes} {fs gs : List (Nat × Nat)} {s : Slot} (h : fs.lookup s.vo = gs.lookup s.vo) (hp : Placed b fs s) :
    Placed b gs s := by
  cases s <;> (simp only [Slot.vo] at h; simp only [Placed, h] at hp ⊢; exact hp)

theorem add_spec (s : Slot) (p : Builder × List (Nat × Nat)) (hs : s.Fits p.1.buf.length) (hn : p.2.lookup s.vo = none) :
    Ext p.1.buf (add s p).1.buf ∧ (add s p).1.vtables = p.1.vtables ∧ Placed (add s p).1.buf (add s p).2 s ∧
      (∀ vo, s.vo ≠ vo → (add s p).2.lookup vo = p.2.lookup vo) ∧ (add s p).1.buf.length ≤ p.1.buf.length + 16 ∧
      ∀ q ∈ (add s p).2, q ∈ p.2 ∨ q.1 = s.vo ∧ p.1.buf.length < q.2 ∧ q.2 ≤ (add s p).1.buf.length := by
  cases s with
  | scalar vo n v =>
    simp only [add]
    by_cases hv : v = 0
    · rw [if_pos hv]
      exact ⟨Ext.refl _, rfl, .inl ⟨hv, hn⟩, fun _ _ => rfl, by omega, fun q hq => .inl hq⟩
    · rw [if_neg hv]
      have h1 := scalar_length p.1 n v
      have h2 := preAlign_le p.1 0 n hs.1
      have h3 := (preAlign_ext p.1 0 n).le
      have h4 := hs.2
      have h5 := hs.1
      refine ⟨scalar_ext _ _ _, rfl, .inr ⟨hv, _, ?_, scalar_at _ _ _, scalar_mod _ _ _ hs.1⟩, ?_, by simp only; omega, ?_⟩
      · simp [List.lookup]
      · intro w hw
        simp [List.lookup, Slot.vo] at hw ⊢
        rw [beq_false_of_ne (Ne.symm hw)]
      · intro q hq
        simp only [List.mem_cons] at hq
        rcases hq with rfl | hq
        · exact .inr ⟨rfl, by simp only; omega, by simp⟩
        · exact .inl hq
  | offset vo o =>
    simp only [add]
    by_cases hv : o = 0
    · rw [if_pos hv]
      exact ⟨Ext.refl _, rfl, .inl ⟨hv, hn⟩, fun _ _ => rfl, by omega, fun q hq => .inl hq⟩
    · rw [if_neg hv]
      have h1 := refer_length p.1 o
      have h2 := preAlign_le p.1 0 4 (by omega)
      have h3 := (preAlign_ext p.1 0 4).le
      have h4 := refer_at p.1 hs
      refine ⟨refer_ext _ _, rfl, .inr ⟨hv, _, ?_, h4.1, by omega, refer_mod _ _⟩, ?_, by simp only; omega, ?_⟩
      · simp [List.lookup]
      · intro w hw
        simp [List.lookup, Slot.vo] at hw ⊢
        rw [beq_false_of_ne (Ne.symm hw)]
      · intro q hq
        simp only [List.mem_cons] at hq
        rcases hq with rfl | hq
        · exact .inr ⟨rfl, by simp only; omega, by simp⟩
        · exact .inl hq

theorem Slot.Fits.mono {m n : Nat} (h : m ≤ n) {s : Slot} (hs : s.Fits m) : s.Fits n := by
  cases s with
  | scalar => exact hs
  | offset => exact Nat.le_trans hs h

theorem addAll_spec (ss : List Slot) : ∀ (p : Builder × List (Nat × Nat)), (∀ s ∈ ss, s.Fits p.1.buf.length) →
    (∀ s ∈ ss, p.2.lookup s.vo = none) → ss.Pairwise (fun s t => s.vo ≠ t.vo) →
    Ext p.1.buf (addAll ss p).1.buf ∧ (addAll ss p).1.vtables = p.1.vtables ∧ (∀ s ∈ ss, Placed (addAll ss p).1.buf (addAll ss p).2 s) ∧
      (∀ vo, (∀ s ∈ ss, s.vo ≠ vo) → (addAll ss p).2.lookup vo = p.2.lookup vo) ∧
      (addAll ss p).1.buf.length ≤ p.1.buf.length + 16 * ss.length ∧
      ∀ q ∈ (addAll ss p).2, q ∈ p.2 ∨ (∃ s ∈ ss, q.1 = s.vo) ∧ p.1.buf.length < q.2 ∧ q.2 ≤ (addAll ss p).1.buf.length := by
  induction ss with
  | nil => intro p _ _ _; exact ⟨Ext.refl _, rfl, by simp, by simp [addAll], by simp [addAll], fun q hq => .inl hq⟩
  | cons s ss ih =>
    intro p h1 h2 h3
    obtain ⟨a1, a2, a3, a4, a5, a6⟩ := add_spec s p (h1 s List.mem_cons_self) (h2 s List.mem_cons_self)
    obtain ⟨h3a, h3b⟩ := List.pairwise_cons.mp h3
    obtain ⟨b1, b2, b3, b4, b5, b6⟩ := ih (add s p) (fun t ht => (h1 t (List.mem_cons_of_mem _ ht)).mono a1.le)
      (fun t ht => by rw [a4 _ (h3a t ht)]; exact h2 t (List.mem_cons_of_mem _ ht)) h3b
    simp only [addAll]
    refine ⟨a1.trans b1, b2.trans a2, ?_, ?_, ?_, ?_⟩
    · intro t ht
      rcases List.mem_cons.mp ht with rfl | ht
      · exact (a3.lookup (b4 _ (fun u hu => Ne.symm (h3a u hu))).symm).ext b1
      · exact b3 t ht
    · intro vo hvo
      rw [b4 vo (fun t ht => hvo t (List.mem_cons_of_mem _ ht)), a4 vo (hvo s List.mem_cons_self)]
    · simp only [List.length_cons]; omega
    · intro q hq
      have hle := b1.le
      have hle' := a1.le
      rcases b6 q hq with hq | ⟨⟨t, ht, e⟩, h5, h6⟩
      · rcases a6 q hq with hq | ⟨e, h5, h6⟩
        · exact .inl hq
        · exact .inr ⟨⟨s, List.mem_cons_self, e⟩, h5, by omega⟩
      · exact .inr ⟨⟨t, List.mem_cons_of_mem _ ht, e⟩, by omega, h6⟩

/-! ## The vtable -/

theorem chunk {α : Type} (f : α → Bytes) (hf : ∀ a, (f a).length = 2) (l : List α) : ∀ (i : Nat) (a : α), l[i]? = some a →
    ∃ u w, l.flatMap f = u ++ (f a ++ w) ∧ u.length = 2 * i := by
  induction l with
  | nil => intro i a h; simp at h
  | cons x xs ih =>
    intro i a h
    cases i with
    | zero =>
      simp at h
      subst h
      exact ⟨[], xs.flatMap f, by simp, rfl⟩
    | succ i =>
      obtain ⟨u, w, e, hu⟩ := ih i a (by simpa using h)
      exact ⟨f x ++ u, w, by simp [e], by simp [hf, hu]; omega⟩

theorem chunks_length {α : Type} (f : α → Bytes) (hf : ∀ a, (f a).length = 2) (l : List α) : (l.flatMap f).length = 2 * l.length := by
  induction l with
  | nil => rfl
  | cons x xs ih => simp [ih, hf]; omega

theorem vtable_length (fs : List (Nat × Nat)) (start loc : Nat) : (vtable fs start loc).length = 4 + 2 * entries fs := by
  simp only [vtable, List.length_append, put_length]
  rw [chunks_length _ (fun _ => put_length _ _)]
  simp

theorem entries_mem {fs : List (Nat × Nat)} {vo e : Nat} (h : (vo, e) ∈ fs) : (vo - 2) / 2 ≤ entries fs := by
  induction fs with
  | nil => simp at h
  | cons q fs ih =>
    obtain ⟨a, c⟩ := q
    rcases List.mem_cons.mp h with h | h
    · cases h
      exact Nat.le_max_left _ _
    · exact Nat.le_trans (ih h) (Nat.le_max_right _ _)

theorem entries_le {fs : List (Nat × Nat)} {m : Nat} (h : ∀ q ∈ fs, q.1 ≤ 2 + 2 * m) : entries fs ≤ m := by
  induction fs with
  | nil => simp [entries]
  | cons q fs ih =>
    obtain ⟨a, c⟩ := q
    have h1 := h (a, c) List.mem_cons_self
    have h2 := ih (fun q hq => h q (List.mem_cons_of_mem _ hq))
    simp only [entries] at *
    omega

theorem lookup_mem {fs : List (Nat × Nat)} {vo e : Nat} (h : fs.lookup vo = some e) : (vo, e) ∈ fs := by
  induction fs with
  | nil => simp at h
  | cons q fs ih =>
    obtain ⟨a, c⟩ := q
    simp only [List.lookup] at h
    split at h
    · rename_i hb
      simp at hb h
      subst hb; subst h
      exact List.mem_cons_self
    · exact List.mem_cons_of_mem _ (ih h)

/-- The fields of the table `e` bytes before the end are found where the list says, whatever is put in front. -/
def HasFields (b : Bytes) (e : Nat) (fs : List (Nat × Nat)) : Prop :=
  ∀ x : Bytes, (x ++ b).length < 2 ^ 31 → (x ++ b).length % 4 = 0 → ∀ i : Nat,
    field (x ++ b) ((x ++ b).length - e) (4 + 2 * i) = .ok ((fs.lookup (4 + 2 * i)).map fun o => (x ++ b).length - o)

theorem hasFields {b : Bytes} {loc ve start s : Nat} {fs : List (Nat × Nat)} (h1 : At b loc (put 4 s)) (hs : s < 2 ^ 32)
    (hsg : loc < 2 ^ 31 → signed s = (ve : Int) - loc) (h2 : At b ve (vtable fs start loc)) (hf : ∀ q ∈ fs, q.2 < loc ∧ loc - q.2 < 2 ^ 16)
    (hk : entries fs < 1000) (hl4 : loc % 4 = 0) (hv2 : ve % 2 = 0) : HasFields b loc fs := by
  intro x hx ha i
  have g1 := h1.mono x
  have g2 := h2.mono x
  generalize x ++ b = d at hx ha g1 g2
  have e1 := g1.uint (by simpa using hs) (sub_aligned ha hl4)
  have l1 := g1.le
  have l2 := g2.le
  have hv : ((d.length - loc : Nat) : Int) - signed s = ((d.length - ve : Nat) : Int) := by rw [hsg (by omega)]; omega
  have e2 : uint d (d.length - ve) 2 = .ok (4 + 2 * entries fs) := by
    have : At d ve (put 2 (4 + 2 * entries fs)) := (At.left (u := put 2 (4 + 2 * entries fs)) (by simpa [vtable] using g2))
    exact this.uint (by simp; omega) (by omega)
  have hsz := g2.size
  rw [vtable_length] at hsz
  unfold field
  simp only [e1, Rd.bind_ok, hv]
  rw [if_neg (by omega)]
  simp only [Int.toNat_natCast, e2, Rd.bind_ok, Rd.pure_eq]
  by_cases hi : i < entries fs
  · rw [if_pos (by omega)]
    obtain ⟨u, w, e3, hu⟩ := chunk (fun i => put 2 (entry fs loc (4 + 2 * i))) (fun _ => put_length _ _) (List.range (entries fs)) i i
      (by simp [hi])
    have g3 : At d (ve - 4 - u.length) (put 2 (entry fs loc (4 + 2 * i))) := by
      have : At d ve (((put 2 (4 + 2 * entries fs) ++ put 2 (loc - start)) ++ u) ++ (put 2 (entry fs loc (4 + 2 * i)) ++ w)) := by
        have := g2
        rw [vtable, e3] at this
        simpa using this
      have := this.right.left
      rw [show ve - 4 - u.length = ve - (put 2 (4 + 2 * entries fs) ++ put 2 (loc - start) ++ u).length by simp; omega]
      exact this
    have hent : entry fs loc (4 + 2 * i) < 2 ^ 16 := by
      unfold entry
      split
      · rename_i e he
        exact (hf _ (lookup_mem he)).2
      · omega
    have e4 := g3.uint (by simpa using hent) (by omega)
    have : d.length - ve + (4 + 2 * i) = d.length - (ve - 4 - u.length) := by omega
    rw [this, e4]
    simp only [Rd.bind_ok]
    congr 1
    unfold entry
    split
    · rename_i e he
      have := hf _ (lookup_mem he)
      simp only at this
      rw [if_neg (by omega)]
      rw [he]
      simp only [Option.map_some, Option.some.injEq]
      omega
    · rename_i he
      rw [if_pos rfl, he]
      rfl
  · rw [if_neg (by omega)]
    congr 1
    cases he : fs.lookup (4 + 2 * i) with
    | none => rfl
    | some e =>
      have := entries_mem (lookup_mem he)
      omega

theorem isPrefix_at {vt b : Bytes} {o : Nat} (ho : o ≤ b.length) (h : vt.isPrefixOf (b.drop (b.length - o)) = true) : At b o vt := by
  rw [List.isPrefixOf_iff_prefix] at h
  obtain ⟨t, ht⟩ := h
  refine ⟨b.take (b.length - o), t, ?_, ?_⟩
  · rw [ht, List.take_append_drop]
  · rw [ht]; simp; omega

theorem endTable_spec (start : Nat) (p : Builder × List (Nat × Nat)) (hw : ∀ o ∈ p.1.vtables, o ≤ p.1.buf.length ∧ o % 2 = 0)
    (hf : ∀ q ∈ p.2, start < q.2 ∧ q.2 ≤ p.1.buf.length ∧ q.1 ≤ 22) (hb : p.1.buf.length ≤ start + 1600) :
    Ext p.1.buf (endTable start p).2.buf ∧ p.1.buf.length < (endTable start p).1 ∧ (endTable start p).1 ≤ (endTable start p).2.buf.length ∧
      (∀ o ∈ (endTable start p).2.vtables, o ≤ (endTable start p).2.buf.length ∧ o % 2 = 0) ∧
      (endTable start p).2.buf.length ≤ p.1.buf.length + 32 ∧ HasFields (endTable start p).2.buf (endTable start p).1 p.2 := by
  have a1 := preAlign_ext p.1 0 4
  have a2 := preAlign_le p.1 0 4 (by omega)
  have a3 := a1.le
  have a4 := preAlign4 p.1
  have hv : (p.1.preAlign 0 4).vtables = p.1.vtables := rfl
  have hk : entries p.2 ≤ 10 := entries_le (fun q hq => by have := (hf q hq).2.2; omega)
  simp only [endTable]
  generalize p.1.preAlign 0 4 = st at *
  have hq : ∀ q ∈ p.2, q.2 < st.buf.length + 4 ∧ st.buf.length + 4 - q.2 < 2 ^ 16 := fun q hq => by
    have := hf q hq; omega
  split
  · rename_i o ho
    have h1 := List.find?_some ho
    have h2 := List.mem_of_find?_eq_some ho
    have h3 : o ≤ st.buf.length := Nat.le_trans (hw o (hv ▸ h2)).1 a3
    have h4 := isPrefix_at h3 h1
    refine ⟨a1.trans ⟨_, rfl⟩, by simp only; omega, by simp [push]; omega, ?_, by simp [push]; omega, ?_⟩
    · intro o' ho'
      have := hw o' (hv ▸ ho')
      simp [push]; omega
    · refine hasFields (s := 2 ^ 32 + o - (st.buf.length + 4)) (ve := o) (start := start) ?_ (by omega) ?_ (h4.mono _) hq (by omega) (by omega) (hw o (hv ▸ h2)).2
      · simp only [push]
        have := At.here st.buf (put 4 (2 ^ 32 + o - (st.buf.length + 4)))
        simpa [Nat.add_comm] using this
      · intro hloc
        unfold signed
        rw [if_neg (by omega)]
        omega
  · refine ⟨a1.trans ⟨_, rfl⟩, by simp only; omega, by simp [push]; omega, ?_, by simp [push, vtable_length]; omega, ?_⟩
    · intro o' ho'
      simp only [List.mem_append, List.mem_singleton] at ho'
      simp only [push, List.length_append, put_length]
      rcases ho' with ho' | rfl
      · have := hw o' (hv ▸ ho'); omega
      · have := vtable_length p.2 start (st.buf.length + 4); omega
    · have hlen := vtable_length p.2 start (st.buf.length + 4)
      refine hasFields (s := (vtable p.2 start (st.buf.length + 4)).length) (ve := st.buf.length + 4 + (vtable p.2 start (st.buf.length + 4)).length)
        (start := start) ?_ (by omega) ?_ ?_ hq (by omega) (by omega) (by omega)
      · have := (At.here st.buf (put 4 (vtable p.2 start (st.buf.length + 4)).length)).mono (vtable p.2 start (st.buf.length + 4))
        simpa [push, Nat.add_comm] using this
      · intro hloc
        unfold signed
        rw [if_pos (by omega)]
        omega
      · have := At.here (put 4 (vtable p.2 start (st.buf.length + 4)).length ++ st.buf) (vtable p.2 start (st.buf.length + 4))
        simpa [push, Nat.add_comm, Nat.add_left_comm] using this

/-- What there is to know about a table after it has been written. -/
theorem table_spec (ss : List Slot) (st : Builder) (hw : ∀ o ∈ st.vtables, o ≤ st.buf.length ∧ o % 2 = 0) (h1 : ∀ s ∈ ss, s.Fits st.buf.length)
    (h2 : ss.Pairwise (fun s t => s.vo ≠ t.vo)) (h3 : ∀ s ∈ ss, s.vo ≤ 22) (h4 : ss.length ≤ 10) :
    Ext st.buf (table ss st).2.buf ∧ st.buf.length < (table ss st).1 ∧ (table ss st).1 ≤ (table ss st).2.buf.length ∧
      (∀ o ∈ (table ss st).2.vtables, o ≤ (table ss st).2.buf.length ∧ o % 2 = 0) ∧ (table ss st).2.buf.length ≤ st.buf.length + 16 * ss.length + 32 ∧
      ∃ fs, HasFields (table ss st).2.buf (table ss st).1 fs ∧ (∀ s ∈ ss, Placed (table ss st).2.buf fs s) ∧
        ∀ vo, (∀ s ∈ ss, s.vo ≠ vo) → fs.lookup vo = none := by
  obtain ⟨a1, a2, a3, a4, a5, a6⟩ := addAll_spec ss (st, []) h1 (by simp) h2
  have hle := a1.le
  obtain ⟨b1, b2, b3, b4, b5, b6⟩ := endTable_spec st.buf.length (addAll ss (st, []))
    (fun o ho => by rw [a2] at ho; have := hw o ho; exact ⟨Nat.le_trans this.1 hle, this.2⟩)
    (fun q hq => by
      rcases a6 q hq with h | ⟨⟨s, hs, e⟩, h5, h6⟩
      · simp at h
      · exact ⟨h5, h6, e ▸ h3 s hs⟩) (by simp only at a5; omega)
  simp only [table]
  simp only at a1 a5 hle
  refine ⟨a1.trans b1, by omega, b3, b4, by omega, _, b6, fun s hs => (a3 s hs).ext b1, fun vo hvo => ?_⟩
  rw [a4 vo hvo]; rfl

/-! ## The alignment asked for so far only grows -/

theorem wide_createString (s : Str) (st : Builder) : st.minalign ≤ (st.createString s).2.minalign := by
  simp only [createString, scalar, push, preAlign]; omega
theorem wide_elements (os : List Nat) (st : Builder) : st.minalign ≤ (elements os st).minalign := by
  induction os with
  | nil => exact Nat.le_refl _
  | cons o os ih => exact Nat.le_trans ih (refer_wide _ _)
theorem wide_createVector (os : List Nat) (st : Builder) : st.minalign ≤ (st.createVector os).2.minalign := by
  refine Nat.le_trans ?_ (Nat.le_trans (wide_elements os (st.preAlign (os.length * 4) 4)) (scalar_wide _ _ _).2)
  simp only [preAlign]; omega
theorem wide_add (s : Slot) (p : Builder × List (Nat × Nat)) : p.1.minalign ≤ (add s p).1.minalign ∧
    ∀ vo n v, s = .scalar vo n v → v ≠ 0 → n ≤ (add s p).1.minalign := by
  cases s with
  | scalar vo n v =>
    simp only [add]
    split
    · rename_i hv
      exact ⟨Nat.le_refl _, fun _ _ _ e h => by cases e; exact absurd hv h⟩
    · exact ⟨(scalar_wide _ _ _).2, fun _ _ _ e _ => by cases e; exact (scalar_wide _ _ _).1⟩
  | offset vo o =>
    refine ⟨?_, fun _ _ _ e => by cases e⟩
    simp only [add]
    split
    · exact Nat.le_refl _
    · exact refer_wide _ _
theorem wide_addAll (ss : List Slot) : ∀ (p : Builder × List (Nat × Nat)), p.1.minalign ≤ (addAll ss p).1.minalign ∧
    ∀ vo n v, .scalar vo n v ∈ ss → v ≠ 0 → n ≤ (addAll ss p).1.minalign := by
  induction ss with
  | nil => intro p; exact ⟨Nat.le_refl _, by simp⟩
  | cons s ss ih =>
    intro p
    obtain ⟨a1, a2⟩ := wide_add s p
    obtain ⟨b1, b2⟩ := ih (add s p)
    refine ⟨Nat.le_trans a1 b1, fun vo n v h hv => ?_⟩
    rcases List.mem_cons.mp h with h | h
    · exact Nat.le_trans (a2 vo n v h.symm hv) b1
    · exact b2 vo n v h hv
theorem wide_table (ss : List Slot) (st : Builder) : st.minalign ≤ (table ss st).2.minalign ∧
    ∀ vo n v, .scalar vo n v ∈ ss → v ≠ 0 → n ≤ (table ss st).2.minalign := by
  obtain ⟨a1, a2⟩ := wide_addAll ss (st, [])
  have h : (addAll ss (st, [])).1.minalign ≤ (table ss st).2.minalign := by
    simp only [table, endTable]
    split <;> (simp only [push, preAlign]; omega)
  exact ⟨Nat.le_trans a1 h, fun vo n v hm hv => Nat.le_trans (a2 vo n v hm hv) h⟩

end Builder
end LP.Flat
