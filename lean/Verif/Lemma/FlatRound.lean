import Verif.Lemma.FlatWrite
import Verif.Lemma.FlatRead
/-! # Messages: what is written is read -/
namespace LP.Flat

/-- The tables `SerializeToStructure` produces. -/
inductive Plain : FB → Prop where
  | str (s : Str) : Plain (.mk 1 0 (some s) 0 0 false (some []) (some []) (some []))
  | int (i : Int32) : Plain (.mk 1 1 none i 0 false (some []) (some []) (some []))
  | dbl {d : Dbl} : FB.wireDbl d = d → Plain (.mk 1 2 none 0 d false (some []) (some []) (some []))
  | bool (v : Bool) : Plain (.mk 1 3 none 0 0 v (some []) (some []) (some []))
  | empty : Plain (.mk 0 0 none 0 0 false (some []) (some []) (some []))
  | list {l : List FB} : (∀ f ∈ l, Plain f) → Plain (.mk 2 0 none 0 0 false (some l) (some []) (some []))
  | dict {k : List Str} {c : List FB} : k.length = c.length → (∀ f ∈ c, Plain f) →
      Plain (.mk 3 0 none 0 0 false (some []) (some k) (some c))

/-! ## The alignment stays small -/

namespace Builder

theorem align_scalar {st : Builder} {n v : Nat} (h : st.minalign ≤ 8) (hn : n ≤ 8) : (st.scalar n v).minalign ≤ 8 := by
  simp only [scalar, push, preAlign]; omega
theorem align_refer {st : Builder} {o : Nat} (h : st.minalign ≤ 8) : (st.refer o).minalign ≤ 8 := by
  simp only [refer, scalar, push, preAlign]; omega
theorem align_createString {st : Builder} {s : Str} (h : st.minalign ≤ 8) : (st.createString s).2.minalign ≤ 8 := by
  simp only [createString, scalar, push, preAlign]; omega
theorem align_elements {st : Builder} (os : List Nat) (h : st.minalign ≤ 8) : (elements os st).minalign ≤ 8 := by
  induction os with
  | nil => exact h
  | cons o os ih => exact align_refer ih
theorem align_createVector {st : Builder} {os : List Nat} (h : st.minalign ≤ 8) : (st.createVector os).2.minalign ≤ 8 := by
  refine align_scalar (align_elements os ?_) (by omega)
  simp only [preAlign]; omega
theorem align_add {p : Builder × List (Nat × Nat)} {s : Slot} {m : Nat} (hs : s.Fits m) (h : p.1.minalign ≤ 8) : (add s p).1.minalign ≤ 8 := by
  cases s with
  | scalar vo n v =>
    simp only [add]
    split
    · exact h
    · exact align_scalar h hs.2
  | offset vo o =>
    simp only [add]
    split
    · exact h
    · exact align_refer h
theorem align_addAll {m : Nat} (ss : List Slot) : ∀ {p : Builder × List (Nat × Nat)}, (∀ s ∈ ss, s.Fits m) → p.1.minalign ≤ 8 →
    (addAll ss p).1.minalign ≤ 8 := by
  induction ss with
  | nil => intro p _ h; exact h
  | cons s ss ih => intro p hs h; exact ih (fun t ht => hs t (List.mem_cons_of_mem _ ht)) (align_add (hs s List.mem_cons_self) h)
theorem align_table {st : Builder} {m : Nat} {ss : List Slot} (hs : ∀ s ∈ ss, s.Fits m) (h : st.minalign ≤ 8) : (table ss st).2.minalign ≤ 8 := by
  have h1 : ((addAll ss (st, [])).1.preAlign 0 4).minalign ≤ 8 := by
    have := align_addAll (p := (st, [])) ss hs h
    simp only [preAlign]; omega
  simp only [table, endTable]
  split <;> exact h1

theorem slots_fit {dt vt : UInt8} {so : Nat} {i : Int32} {d : Dbl} {x : Bool} {lv kv cv : Nat} :
    ∀ s ∈ slots dt vt so i d x lv kv cv, s.Fits (so + lv + kv + cv) := by
  intro s hs
  simp only [slots, List.mem_cons, List.not_mem_nil, or_false] at hs
  rcases hs with rfl | rfl | rfl | rfl | rfl | rfl | rfl | rfl | rfl <;> simp only [Slot.Fits] <;> omega

theorem createString_vtables (s : Str) (st : Builder) : (st.createString s).2.vtables = st.vtables := rfl
theorem elements_vtables (os : List Nat) (st : Builder) : (elements os st).vtables = st.vtables := by
  induction os with
  | nil => rfl
  | cons o os ih => simp only [elements]; exact ih
theorem createVector_vtables (os : List Nat) (st : Builder) : (st.createVector os).2.vtables = st.vtables := elements_vtables _ _

theorem WF.ext {st st' : Builder} (h : st.WF) (hv : st'.vtables = st.vtables) (he : Ext st.buf st'.buf)
    (hm : st'.minalign ≤ 8) : st'.WF :=
  ⟨fun o ho => ⟨Nat.le_trans (h.1 o (hv ▸ ho)).1 he.le, (h.1 o (hv ▸ ho)).2⟩, hm⟩

/-- Writing the table succeeds in the sense that it is found again. -/
def Good (f : FB) : Prop := ∀ st : Builder, st.WF → Ext st.buf (datagram f st).2.buf ∧ (datagram f st).2.WF ∧
  st.minalign ≤ (datagram f st).2.minalign ∧ IsDg (datagram f st).2.buf (datagram f st).1 f (datagram f st).2.minalign

theorem itemsL_spec (l : List FB) (hl : ∀ f ∈ l, Good f) : ∀ st : Builder, st.WF →
    Ext st.buf (itemsL l st).2.buf ∧ (itemsL l st).2.WF ∧ st.minalign ≤ (itemsL l st).2.minalign ∧ (itemsL l st).1.length = l.length ∧
      ∀ (i o : Nat) (f : FB), (itemsL l st).1[i]? = some o → l[i]? = some f → IsDg (itemsL l st).2.buf o f (itemsL l st).2.minalign := by
  induction l with
  | nil => intro st hw; exact ⟨Ext.refl _, hw, Nat.le_refl _, rfl, by simp⟩
  | cons g l ih =>
    intro st hw
    obtain ⟨a1, a2, am, a3⟩ := hl g List.mem_cons_self st hw
    obtain ⟨b1, b2, bm, b3, b4⟩ := ih (fun f hf => hl f (List.mem_cons_of_mem _ hf)) (datagram g st).2 a2
    simp only [itemsL]
    refine ⟨a1.trans b1, b2, Nat.le_trans am bm, by simp [b3], fun i o f ho hf => ?_⟩
    cases i with
    | zero =>
      simp at ho hf
      subst ho; subst hf
      exact a3.ext b1 bm
    | succ i => exact b4 i o f (by simpa using ho) (by simpa using hf)

theorem pairsL_spec (k : List Str) : ∀ (l : List FB), (∀ f ∈ l, Good f) → k.length = l.length → ∀ st : Builder, st.WF →
    Ext st.buf (pairsL k l st).2.2.buf ∧ (pairsL k l st).2.2.WF ∧ st.minalign ≤ (pairsL k l st).2.2.minalign ∧ (pairsL k l st).1.length = k.length ∧
      (pairsL k l st).2.1.length = l.length ∧
      (∀ (i o : Nat) (s : Str), (pairsL k l st).1[i]? = some o → k[i]? = some s → IsStr (pairsL k l st).2.2.buf o s) ∧
      ∀ (i o : Nat) (f : FB), (pairsL k l st).2.1[i]? = some o → l[i]? = some f → IsDg (pairsL k l st).2.2.buf o f (pairsL k l st).2.2.minalign := by
  induction k with
  | nil => intro l hl he st hw; cases l with
    | nil => exact ⟨Ext.refl _, hw, Nat.le_refl _, rfl, rfl, by simp, by simp⟩
    | cons => simp at he
  | cons s k ih => intro l hl he st hw; cases l with
    | nil => simp at he
    | cons g l =>
      obtain ⟨c1, c2, c3, c4⟩ := createString_spec s st
      have cw : (st.createString s).2.WF := hw.ext rfl c1 (align_createString hw.2)
      obtain ⟨a1, a2, am, a3⟩ := hl g List.mem_cons_self _ cw
      obtain ⟨b1, b2, bm, b3, b3', b4, b5⟩ := ih l (fun f hf => hl f (List.mem_cons_of_mem _ hf)) (by simpa using he)
        (datagram g (st.createString s).2).2 a2
      simp only [pairsL]
      refine ⟨c1.trans (a1.trans b1), b2, Nat.le_trans (wide_createString s st) (Nat.le_trans am bm), by simp [b3], by simp [b3'], fun i o f ho hf => ?_, fun i o f ho hf => ?_⟩
      · cases i with
        | zero =>
          simp at ho hf
          subst ho; subst hf
          exact c3.ext (a1.trans b1)
        | succ i => exact b4 i o f (by simpa using ho) (by simpa using hf)
      · cases i with
        | zero =>
          simp at ho hf
          subst ho; subst hf
          exact a3.ext b1 bm
        | succ i => exact b5 i o f (by simpa using ho) (by simpa using hf)

theorem IsVec.ext {b b' : Bytes} (h : Ext b b') {e : Nat} {os : List Nat} (g : IsVec b e os) : IsVec b' e os := by
  obtain ⟨x, rfl⟩ := h; exact g.mono x

theorem isStr_le {b : Bytes} {e : Nat} {s : Str} (h : IsStr b e s) : e ≤ b.length := At.le h.1

/-- What there is to know after the three vectors and the table have been written. -/
theorem tail_spec (dt vt : UInt8) (so : Nat) (i : Int32) (d : Dbl) (x : Bool) (lo ko co : List Nat) (st : Builder) (hw : st.WF)
    (hso : so ≤ st.buf.length) (hlo : ∀ o ∈ lo, o ≤ st.buf.length) (hko : ∀ o ∈ ko, o ≤ st.buf.length) (hco : ∀ o ∈ co, o ≤ st.buf.length) :
    let st4 := (st.createVector lo).2
    let st5 := (st4.createVector ko).2
    let st6 := (st5.createVector co).2
    let lv := (st.createVector lo).1
    let kv := (st4.createVector ko).1
    let cv := (st5.createVector co).1
    let r := table (slots dt vt so i d x lv kv cv) st6
    Ext st.buf r.2.buf ∧ r.2.WF ∧ r.1 ≤ r.2.buf.length ∧ 0 < r.1 ∧ 0 < lv ∧ 0 < kv ∧ 0 < cv ∧
      r.2.buf.length ≤ st.buf.length + 4 * lo.length + 4 * ko.length + 4 * co.length + 200 ∧
      IsVec r.2.buf lv lo ∧ IsVec r.2.buf kv ko ∧ IsVec r.2.buf cv co ∧
      st.minalign ≤ r.2.minalign ∧ ((FB.wireDbl d).toNat ≠ 0 → 8 ≤ r.2.minalign) ∧
      ∃ fs, HasFields r.2.buf r.1 fs ∧ ∀ s ∈ slots dt vt so i d x lv kv cv, Placed r.2.buf fs s := by
  intro st4 st5 st6 lv kv cv r
  obtain ⟨a1, a2, a3, a4, a5⟩ := createVector_spec lo st hlo
  have la := a1.le
  obtain ⟨b1, b2, b3, b4, b5⟩ := createVector_spec ko st4 (fun o ho => Nat.le_trans (hko o ho) la)
  have lb := b1.le
  obtain ⟨c1, c2, c3, c4, c5⟩ := createVector_spec co st5 (fun o ho => Nat.le_trans (hco o ho) (Nat.le_trans la lb))
  have lc := c1.le
  have w4 : st4.WF := hw.ext (createVector_vtables _ _) a1 (align_createVector hw.2)
  have w5 : st5.WF := w4.ext (createVector_vtables _ _) b1 (align_createVector w4.2)
  have w6 : st6.WF := w5.ext (createVector_vtables _ _) c1 (align_createVector w5.2)
  have e1 : lv = st4.buf.length := a2
  have e2 : kv = st5.buf.length := b2
  have e3 : cv = st6.buf.length := c2
  have la' : st.buf.length ≤ st4.buf.length := la
  have lb' : st4.buf.length ≤ st5.buf.length := lb
  have lc' : st5.buf.length ≤ st6.buf.length := lc
  obtain ⟨t1, t2, t3, t4, t5, fs, t6, t7, t8⟩ := table_spec (slots dt vt so i d x lv kv cv) st6 w6.1
    (by
      intro s hs
      simp only [slots, List.mem_cons, List.not_mem_nil, or_false] at hs
      rcases hs with rfl | rfl | rfl | rfl | rfl | rfl | rfl | rfl | rfl <;> simp only [Slot.Fits] <;> omega)
    (by simp [slots, Slot.vo])
    (by
      intro s hs
      simp only [slots, List.mem_cons, List.not_mem_nil, or_false] at hs
      rcases hs with rfl | rfl | rfl | rfl | rfl | rfl | rfl | rfl | rfl <;> simp [Slot.vo])
    (by simp [slots])
  have t5' : r.2.buf.length ≤ st6.buf.length + 16 * 9 + 32 := t5
  have a5' : st4.buf.length ≤ st.buf.length + 4 * lo.length + 7 := a5
  have b5' : st5.buf.length ≤ st4.buf.length + 4 * ko.length + 7 := b5
  have c5' : st6.buf.length ≤ st5.buf.length + 4 * co.length + 7 := c5
  have m1 := wide_createVector lo st
  have m2 := wide_createVector ko st4
  have m3 := wide_createVector co st5
  obtain ⟨m4, m5⟩ := wide_table (slots dt vt so i d x lv kv cv) st6
  refine ⟨((a1.trans b1).trans c1).trans t1, ⟨t4, align_table slots_fit w6.2⟩, t3, ?_, a4, b4, c4, by omega, ?_, ?_, ?_,
    Nat.le_trans m1 (Nat.le_trans m2 (Nat.le_trans m3 m4)), m5 12 8 _ (by simp [slots]), fs, t6, t7⟩
  · have : st6.buf.length < r.1 := t2; omega
  · exact IsVec.ext ((b1.trans c1).trans t1) a3
  · exact IsVec.ext (c1.trans t1) b3
  · exact IsVec.ext t1 c3

theorem good {f : FB} (h : Plain f) : Good f := by
  induction h with
  | str s =>
    intro st hw
    obtain ⟨c1, c2, c3, c4⟩ := createString_spec s st
    obtain ⟨t1, t2, t3, t4, t5, t6, t7, _, t8, t9, t10, tm, td, fs, t11, t12⟩ := tail_spec 1 0 (st.createString s).1 0 0 false [] [] []
      (st.createString s).2 (hw.ext rfl c1 (align_createString hw.2)) (by omega) (by simp) (by simp) (by simp)
    simp only [datagram, items, itemsL, pairs, pairsL, Option.getD_some]
    exact ⟨c1.trans t1, t2, Nat.le_trans (wide_createString s st) tm, dg_str t3 t4 t11 (t12 _ (by simp [slots])) (t12 _ (by simp [slots])) (t12 _ (by simp [slots])) c4 (c3.ext t1)⟩
  | int i =>
    intro st hw
    obtain ⟨t1, t2, t3, t4, t5, t6, t7, _, t8, t9, t10, tm, td, fs, t11, t12⟩ := tail_spec 1 1 0 i 0 false [] [] []
      st hw (by omega) (by simp) (by simp) (by simp)
    simp only [datagram, items, itemsL, pairs, pairsL, Option.getD_some]
    exact ⟨t1, t2, tm, dg_int t3 t4 t11 (t12 _ (by simp [slots])) (t12 _ (by simp [slots])) (t12 _ (by simp [slots]))⟩
  | @dbl d hd =>
    intro st hw
    obtain ⟨t1, t2, t3, t4, t5, t6, t7, _, t8, t9, t10, tm, td, fs, t11, t12⟩ := tail_spec 1 2 0 0 d false [] [] []
      st hw (by omega) (by simp) (by simp) (by simp)
    simp only [datagram, items, itemsL, pairs, pairsL, Option.getD_some]
    exact ⟨t1, t2, tm, dg_dbl t3 t4 t11 (t12 _ (by simp [slots])) (t12 _ (by simp [slots])) (t12 _ (by simp [slots, hd])) (fun h => td (by rw [hd]; exact h))⟩
  | bool v =>
    intro st hw
    obtain ⟨t1, t2, t3, t4, t5, t6, t7, _, t8, t9, t10, tm, td, fs, t11, t12⟩ := tail_spec 1 3 0 0 0 v [] [] []
      st hw (by omega) (by simp) (by simp) (by simp)
    simp only [datagram, items, itemsL, pairs, pairsL, Option.getD_some]
    exact ⟨t1, t2, tm, dg_bool t3 t4 t11 (t12 _ (by simp [slots])) (t12 _ (by simp [slots])) (t12 _ (by simp [slots]))⟩
  | empty =>
    intro st hw
    obtain ⟨t1, t2, t3, t4, t5, t6, t7, _, t8, t9, t10, tm, td, fs, t11, t12⟩ := tail_spec 0 0 0 0 0 false [] [] []
      st hw (by omega) (by simp) (by simp) (by simp)
    simp only [datagram, items, itemsL, pairs, pairsL, Option.getD_some]
    exact ⟨t1, t2, tm, dg_empty t3 t4 t11 (t12 _ (by simp [slots]))⟩
  | @list l _ ih =>
    intro st hw
    obtain ⟨a1, a2, am, a3, a4⟩ := itemsL_spec l ih st hw
    obtain ⟨t1, t2, t3, t4, t5, t6, t7, _, t8, t9, t10, tm, td, fs, t11, t12⟩ := tail_spec 2 0 0 0 0 false (itemsL l st).1 [] []
      (itemsL l st).2 a2 (by omega) (fun o ho => by
        obtain ⟨i, hi, e⟩ := List.mem_iff_getElem.mp ho
        have hf : l[i]? = some (l[i]'(by omega)) := by simp
        exact (a4 i o _ (by simp [← e]) hf).1) (by simp) (by simp)
    simp only [datagram, items, pairs, pairsL, Option.getD_some]
    exact ⟨a1.trans t1, t2, Nat.le_trans am tm, dg_list t3 t4 t11 (t12 _ (by simp [slots])) (t12 _ (by simp [slots])) t8 t5 a3
      (fun i o f ho hf => (a4 i o f ho hf).ext t1 tm)⟩
  | @dict k c hk _ ih =>
    intro st hw
    obtain ⟨a1, a2, am, a3, a3', a4, a5⟩ := pairsL_spec k c ih hk st hw
    obtain ⟨t1, t2, t3, t4, t5, t6, t7, _, t8, t9, t10, tm, td, fs, t11, t12⟩ := tail_spec 3 0 0 0 0 false [] (pairsL k c st).1 (pairsL k c st).2.1
      (pairsL k c st).2.2 a2 (by omega) (by simp) (fun o ho => by
        obtain ⟨i, hi, e⟩ := List.mem_iff_getElem.mp ho
        have hf : k[i]? = some (k[i]'(by omega)) := by simp
        exact isStr_le (a4 i o _ (by simp [← e]) hf)) (fun o ho => by
        obtain ⟨i, hi, e⟩ := List.mem_iff_getElem.mp ho
        have hf : c[i]? = some (c[i]'(by omega)) := by simp
        exact (a5 i o _ (by simp [← e]) hf).1)
    simp only [datagram, items, itemsL, pairs, Option.getD_some]
    exact ⟨a1.trans t1, t2, Nat.le_trans am tm, dg_dict t3 t4 t11 (t12 _ (by simp [slots])) (t12 _ (by simp [slots])) (t12 _ (by simp [slots])) t9 t10 t6 t7
      a3 a3' hk (fun i o f ho hf => (a4 i o f ho hf).ext t1) (fun i o f ho hf => (a5 i o f ho hf).ext t1 tm)⟩

end Builder

/-- A message whose parts stand in the buffer is read. -/
theorem message_read {st : Builder} (hw : st.WF) {so po d : Nat} {s p : Str} {f : FB} (h1 : IsStr st.buf so s) (h2 : IsStr st.buf po p)
    (s0 : 0 < so) (p0 : 0 < po) (h3 : IsDg st.buf d f st.minalign) :
    let r := Builder.table [.offset 8 d, .offset 6 po, .offset 4 so] st
    let b := Builder.finish r.1 r.2
    b ≠ [] ∧ b.length ≤ st.buf.length + 87 + r.2.minalign ∧ (b.length < 2 ^ 31 → message b = .ok ⟨some s, some p, some f⟩) := by
  intro r b
  obtain ⟨t1, t2, t3, t4, t5, fs, t6, t7, t8⟩ := Builder.table_spec [.offset 8 d, .offset 6 po, .offset 4 so] st hw.1
    (by
      intro q hq
      simp only [List.mem_cons, List.not_mem_nil, or_false] at hq
      rcases hq with rfl | rfl | rfl
      · exact h3.1
      · exact Builder.isStr_le h2
      · exact Builder.isStr_le h1)
    (by simp [Builder.Slot.vo])
    (by
      intro q hq
      simp only [List.mem_cons, List.not_mem_nil, or_false] at hq
      rcases hq with rfl | rfl | rfl <;> simp [Builder.Slot.vo])
    (by simp)
  have x1 := Builder.preAlign_ext r.2 4 r.2.minalign
  have x2 := Builder.refer_ext (r.2.preAlign 4 r.2.minalign) r.1
  have hb : Ext r.2.buf b := x1.trans x2
  have t3' : r.1 ≤ r.2.buf.length := t3
  have hat := Builder.refer_at (r.2.preAlign 4 r.2.minalign) (Nat.le_trans t3' x1.le)
  have hl := Builder.refer_length (r.2.preAlign 4 r.2.minalign) r.1
  have hbl : b.length = 4 + ((r.2.preAlign 4 r.2.minalign).preAlign 0 4).buf.length := hl
  have t5' : r.2.buf.length ≤ st.buf.length + 16 * 3 + 32 := t5
  refine ⟨fun h => by rw [h] at hbl; simp at hbl; omega, ?_, fun hlt => ?_⟩
  · have l2 := Builder.preAlign_le (r.2.preAlign 4 r.2.minalign) 0 4 (by omega)
    have l1 : (r.2.preAlign 4 r.2.minalign).buf.length ≤ r.2.buf.length + r.2.minalign := by
      rcases Nat.eq_zero_or_pos r.2.minalign with h | h
      · rw [Builder.preAlign_length, h]; simp
      · have := Builder.preAlign_le r.2 4 r.2.minalign h; omega
    omega
  · have hl4 : b.length % 4 = 0 := Builder.refer_mod (r.2.preAlign 4 r.2.minalign) r.1
    have hm : r.2.minalign ≤ 8 := Builder.align_table (m := d + po + so) (by
      intro q hq
      simp only [List.mem_cons, List.not_mem_nil, or_false] at hq
      rcases hq with rfl | rfl | rfl <;> simp only [Builder.Slot.Fits] <;> omega) hw.2
    have hl8 : 8 ≤ r.2.minalign → b.length % 8 = 0 := by
      intro h8
      have e8 : r.2.minalign = 8 := Nat.le_antisymm hm h8
      have p1 := Builder.preAlign_mod r.2 4 8 (by omega)
      rw [e8, Builder.preAlign_length] at hbl
      omega
    have hlim : Lim r.2.minalign b.length := ⟨hlt, hl4, hl8⟩
    have tm := (Builder.wide_table [.offset 8 d, .offset 6 po, .offset 4 so] st).1
    obtain ⟨x, hx⟩ := hb
    have hat1 : At b b.length (put 4 (b.length - r.1)) := hat.1
    have hat2 : r.1 + 4 ≤ b.length := hat.2
    have e1 := target_at hat1 (by omega) hl4 hlt hl4
    rw [Nat.sub_self] at e1
    rw [hx] at hlt hl4 hlim
    have e2 := stringField_read (i := 0) t6 (t7 _ (by simp)) s0 (h1.ext t1) x hlt hl4
    have e3 := stringField_read (i := 1) t6 (t7 _ (by simp)) p0 (h2.ext t1) x hlt hl4
    have e4 := pointer_read (i := 2) (o := d) t6 (t7 _ (by simp)) x hlt hl4
    have h3' := h3.ext t1 tm
    rw [if_neg (by have := h3.2.1; omega)] at e4
    have hd := datagram_depth _ _ _ _ (h3'.2.2 x f.depth hlim (Nat.le_refl _))
    have hd' : f.depth ≤ (x ++ r.2.buf).length := Nat.le_trans (Nat.le_add_left _ _) hd
    have e5 := h3'.2.2 x ((x ++ r.2.buf).length + 1) hlim (Nat.le_succ_of_le hd')
    simp only [message]
    rw [e1]
    simp only [Rd.bind_ok]
    rw [hx]
    simp only [Nat.mul_zero, Nat.add_zero, Nat.mul_one, Nat.reduceAdd, Nat.reduceMul] at e2 e3 e4
    have e2' : stringField (x ++ r.2.buf) ((x ++ r.2.buf).length - r.1) 4 = .ok (some s) := e2
    have e3' : stringField (x ++ r.2.buf) ((x ++ r.2.buf).length - r.1) 6 = .ok (some p) := e3
    have e4' : pointer (x ++ r.2.buf) ((x ++ r.2.buf).length - r.1) 8 = .ok (some ((x ++ r.2.buf).length - d)) := e4
    have e5' : datagram ((x ++ r.2.buf).length + 1) (x ++ r.2.buf) ((x ++ r.2.buf).length - d) = .ok f := e5
    simp only [e2', e3', e4', e5', Rd.bind_ok, Rd.pure_eq]

end LP.Flat
