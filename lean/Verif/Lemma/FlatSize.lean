import Verif.Lemma.FlatRound
import Verif.Spec.Flat
import Verif.Lemma.Wire
/-! # How many bytes a message takes -/
namespace LP.Flat
open Heap Tree

mutual
/-- A bound on the bytes of a table with everything it refers to. -/
def room : FB → Nat
  | .mk _ _ s _ _ _ l k c => 123 + (s.map List.length).getD 0 + roomO l + roomP (k.getD []) c
/-- Of the elements with the references to them. -/
def roomO : Option (List FB) → Nat
  | none => 0
  | some l => roomL l
/-- Of the elements with the references to them. -/
def roomL : List FB → Nat
  | [] => 0
  | f :: fs => 7 + room f + roomL fs
/-- Of the entries with the references to them. -/
def roomP : List Str → Option (List FB) → Nat
  | _, none => 0
  | ks, some l => roomPL ks l
/-- Of the entries with the references to them. -/
def roomPL : List Str → List FB → Nat
  | [], _ => 0
  | _ :: _, [] => 0
  | k :: ks, f :: fs => 25 + k.length + room f + roomPL ks fs
end

mutual
/-- The text in a table and everything it refers to. -/
def word : FB → Nat
  | .mk _ _ s _ _ _ l k c => (s.map List.length).getD 0 + wordO l + wordP (k.getD []) c
/-- In the elements. -/
def wordO : Option (List FB) → Nat
  | none => 0
  | some l => wordL l
/-- In the elements. -/
def wordL : List FB → Nat
  | [] => 0
  | f :: fs => word f + wordL fs
/-- In the entries. -/
def wordP : List Str → Option (List FB) → Nat
  | _, none => 0
  | ks, some l => wordPL ks l
/-- In the entries. -/
def wordPL : List Str → List FB → Nat
  | [], _ => 0
  | _ :: _, [] => 0
  | k :: ks, f :: fs => k.length + word f + wordPL ks fs
end

namespace Builder

/-- From `st` to `st'` at least `m` and at most `n` bytes were written, and nothing aligned to more than 8. -/
structure Grew (st st' : Builder) (m n : Nat) : Prop where
  least : st.buf.length + m ≤ st'.buf.length
  most : st'.buf.length ≤ st.buf.length + n
  align : 0 < st.minalign ∧ st.minalign ≤ 8 → 0 < st'.minalign ∧ st'.minalign ≤ 8

theorem Grew.trans {a b c : Builder} {m n m' n' : Nat} (h : Grew a b m n) (h' : Grew b c m' n') : Grew a c (m + m') (n + n') :=
  ⟨by have := h.least; have := h'.least; omega, by have := h.most; have := h'.most; omega, fun x => h'.align (h.align x)⟩

theorem Grew.wide {a b : Builder} {m n m' n' : Nat} (h : Grew a b m n) (h1 : m' ≤ m) (h2 : n ≤ n') : Grew a b m' n' :=
  ⟨by have := h.least; omega, by have := h.most; omega, h.align⟩

theorem grew_refl (st : Builder) : Grew st st 0 0 := ⟨by omega, by omega, id⟩

theorem grew_push (w : Bytes) (st : Builder) : Grew st (st.push w) w.length w.length :=
  ⟨by simp [push]; omega, by simp [push]; omega, id⟩

theorem grew_preAlign (st : Builder) (l a : Nat) (ha : 0 < a) (h8 : a ≤ 8) : Grew st (st.preAlign l a) 0 (a - 1) := by
  have h1 := preAlign_le st l a ha
  have h2 := preAlign_length st l a
  refine ⟨by omega, by omega, fun h => ?_⟩
  simp only [preAlign]; omega

theorem grew_scalar (st : Builder) (n v : Nat) (hn : 0 < n) (h8 : n ≤ 8) : Grew st (st.scalar n v) n (2 * n - 1) := by
  have := (grew_preAlign st 0 n hn h8).trans (grew_push (put n v) (st.preAlign 0 n))
  rw [put_length] at this
  exact this.wide (by omega) (by omega)

theorem grew_refer (st : Builder) (o : Nat) : Grew st (st.refer o) 4 7 := by
  have h1 := refer_length st o
  have h2 := preAlign_le st 0 4 (by omega)
  have h3 := preAlign_length st 0 4
  refine ⟨by omega, by omega, fun h => ?_⟩
  simp only [refer, scalar, push, preAlign]; omega

theorem grew_string (s : Str) (st : Builder) : Grew st (createString s st).2 s.length (s.length + 11) := by
  have h1 := grew_preAlign st (s.length + 1) 4 (by omega) (by omega)
  have h2 := grew_push [0] (st.preAlign (s.length + 1) 4)
  have h3 := grew_push s ((st.preAlign (s.length + 1) 4).push [0])
  have h4 := grew_scalar (((st.preAlign (s.length + 1) 4).push [0]).push s) 4 s.length (by omega) (by omega)
  exact (((h1.trans h2).trans h3).trans h4).wide (by simp; omega) (by simp; omega)

theorem grew_elements (os : List Nat) (st : Builder) : Grew st (elements os st) 0 (7 * os.length) := by
  induction os with
  | nil => exact grew_refl st
  | cons o os ih => exact (ih.trans (grew_refer _ o)).wide (by omega) (by simp; omega)

theorem grew_vector (os : List Nat) (st : Builder) : Grew st (createVector os st).2 0 (7 * os.length + 10) := by
  have h1 := grew_preAlign st (os.length * 4) 4 (by omega) (by omega)
  have h2 := grew_elements os (st.preAlign (os.length * 4) 4)
  have h3 := grew_scalar (elements os (st.preAlign (os.length * 4) 4)) 4 os.length (by omega) (by omega)
  exact ((h1.trans h2).trans h3).wide (by omega) (by omega)

/-- A bound on the bytes of a field. -/
def Slot.room : Slot → Nat
  | .scalar _ n _ => 2 * n - 1
  | .offset _ _ => 7

/-- The width of a field is one of the four. -/
def Slot.Sized : Slot → Prop
  | .scalar _ n _ => 0 < n ∧ n ≤ 8
  | .offset _ _ => True

/-- The place of a field in the vtable. -/
def Slot.num : Slot → Nat
  | .scalar vo _ _ => (vo - 2) / 2
  | .offset vo _ => (vo - 2) / 2

theorem grew_add (s : Slot) (p : Builder × List (Nat × Nat)) (hs : s.Sized) {k : Nat} (hk : s.num ≤ k) (hp : entries p.2 ≤ k) :
    Grew p.1 (add s p).1 0 s.room ∧ entries (add s p).2 ≤ k := by
  cases s with
  | scalar vo n v =>
    simp only [add]
    split
    · exact ⟨(grew_refl _).wide (by omega) (by omega), hp⟩
    · exact ⟨(grew_scalar _ n v hs.1 hs.2).wide (by omega) (by simp [Slot.room]), by simp [entries, Slot.num] at *; omega⟩
  | offset vo o =>
    simp only [add]
    split
    · exact ⟨(grew_refl _).wide (by omega) (by omega), hp⟩
    · exact ⟨(grew_refer _ o).wide (by omega) (by simp [Slot.room]), by simp [entries, Slot.num] at *; omega⟩

theorem grew_addAll (k : Nat) : ∀ (ss : List Slot) (p : Builder × List (Nat × Nat)), (∀ s ∈ ss, s.Sized ∧ s.num ≤ k) → entries p.2 ≤ k →
    Grew p.1 (addAll ss p).1 0 (ss.map Slot.room).sum ∧ entries (addAll ss p).2 ≤ k := by
  intro ss
  induction ss with
  | nil => intro p _ hp; exact ⟨grew_refl _, hp⟩
  | cons s ss ih =>
    intro p hs hp
    have h0 := hs s (by simp)
    obtain ⟨h1, h2⟩ := grew_add s p h0.1 h0.2 hp
    obtain ⟨h3, h4⟩ := ih (add s p) (fun x hx => hs x (by simp [hx])) h2
    exact ⟨(h1.trans h3).wide (by omega) (by simp), h4⟩

theorem grew_endTable (start : Nat) (p : Builder × List (Nat × Nat)) {k : Nat} (hk : entries p.2 ≤ k) :
    Grew p.1 (endTable start p).2 0 (11 + 2 * k) := by
  have h1 := grew_preAlign p.1 0 4 (by omega) (by omega)
  simp only [endTable]
  split
  · exact (h1.trans (grew_push _ _)).wide (by omega) (by simp; omega)
  · have h2 := grew_push (vtable p.2 start ((p.1.preAlign 0 4).buf.length + 4) ++
      put 4 (vtable p.2 start ((p.1.preAlign 0 4).buf.length + 4)).length) (p.1.preAlign 0 4)
    have h3 := vtable_length p.2 start ((p.1.preAlign 0 4).buf.length + 4)
    have h4 := h1.trans h2
    exact ⟨by have := h4.least; simpa using by omega, by have := h4.most; simp only [List.length_append, put_length] at this; simp only at *; omega, h4.align⟩

theorem grew_table (k : Nat) (ss : List Slot) (st : Builder) (hs : ∀ s ∈ ss, s.Sized ∧ s.num ≤ k) :
    Grew st (table ss st).2 0 ((ss.map Slot.room).sum + 11 + 2 * k) := by
  obtain ⟨h1, h2⟩ := grew_addAll k ss (st, []) hs (by simp [entries])
  exact (h1.trans (grew_endTable st.buf.length _ h2)).wide (by omega) (by omega)

theorem grew_slots (dt vt : UInt8) (so : Nat) (i : Int32) (d : Dbl) (x : Bool) (lv kv cv : Nat) (st : Builder) :
    Grew st (table (slots dt vt so i d x lv kv cv) st).2 0 82 := by
  refine (grew_table 9 _ st ?_).wide (by omega) (by simp [slots, Slot.room])
  intro s hs
  simp only [slots, List.mem_cons, List.not_mem_nil, or_false] at hs
  rcases hs with rfl | rfl | rfl | rfl | rfl | rfl | rfl | rfl | rfl <;> simp [Slot.Sized, Slot.num]

theorem grew_rest (dt vt : UInt8) (so : Nat) (i : Int32) (d : Dbl) (x : Bool) (l : Option (List FB)) (k : Option (List Str))
    (c : Option (List FB)) (st1 : Builder)
    (hi : ∀ st, Grew st (items l st).2 (wordO l) (roomO l - 7 * (items l st).1.length) ∧ 7 * (items l st).1.length ≤ roomO l)
    (hp : ∀ st, Grew st (pairs (k.getD []) c st).2.2 (wordP (k.getD []) c)
        (roomP (k.getD []) c - 7 * (pairs (k.getD []) c st).1.length - 7 * (pairs (k.getD []) c st).2.1.length) ∧
      7 * (pairs (k.getD []) c st).1.length + 7 * (pairs (k.getD []) c st).2.1.length ≤ roomP (k.getD []) c) :
    Grew st1 (
      let (lo, st2) := items l st1
      let (ko, co, st3) := pairs (k.getD []) c st2
      let (lv, st4) := createVector lo st3
      let (kv, st5) := createVector ko st4
      let (cv, st6) := createVector co st5
      table (slots dt vt so i d x lv kv cv) st6).2 (wordO l + wordP (k.getD []) c) (112 + roomO l + roomP (k.getD []) c) := by
  obtain ⟨h2, n2⟩ := hi st1
  revert h2 n2
  rcases items l st1 with ⟨lo, st2⟩
  intro h2 n2
  obtain ⟨h3, n3⟩ := hp st2
  revert h3 n3
  simp only
  rcases pairs (k.getD []) c st2 with ⟨ko, co, st3⟩
  intro h3 n3
  have h4 := grew_vector lo st3
  have h5 := grew_vector ko (createVector lo st3).2
  have h6 := grew_vector co (createVector ko (createVector lo st3).2).2
  have h7 := grew_slots dt vt so i d x (createVector lo st3).1 (createVector ko (createVector lo st3).2).1
    (createVector co (createVector ko (createVector lo st3).2).2).1 (createVector co (createVector ko (createVector lo st3).2).2).2
  have h8 := ((((h2.trans h3).trans h4).trans h5).trans h6).trans h7
  simp only at n2 n3 h8
  exact Grew.wide h8 (by omega) (by omega)

mutual
theorem grew_datagram : ∀ (f : FB) (st : Builder), Grew st (datagram f st).2 (word f) (room f)
  | .mk dt vt s i d x l k c, st0 => by
    cases s with
    | none => exact (grew_rest dt vt 0 i d x l k c st0 (fun st => grew_items l st) (fun st => grew_pairs (k.getD []) c st)).wide (by simp [word]) (by simp [room])
    | some s =>
      exact ((grew_string s st0).trans (grew_rest dt vt (createString s st0).1 i d x l k c (createString s st0).2
        (fun st => grew_items l st) (fun st => grew_pairs (k.getD []) c st))).wide
        (by simp [word]; omega) (by simp [room]; omega)
theorem grew_items : ∀ (l : Option (List FB)) (st : Builder), Grew st (items l st).2 (wordO l) (roomO l - 7 * (items l st).1.length) ∧
    7 * (items l st).1.length ≤ roomO l
  | none, st => ⟨grew_refl st, by simp [items, roomO]⟩
  | some l, st => grew_itemsL l st
theorem grew_itemsL : ∀ (l : List FB) (st : Builder), Grew st (itemsL l st).2 (wordL l) (roomL l - 7 * (itemsL l st).1.length) ∧
    7 * (itemsL l st).1.length ≤ roomL l
  | [], st => ⟨grew_refl st, by simp [itemsL, roomL]⟩
  | f :: fs, st => by
    have h1 := grew_datagram f st
    obtain ⟨h2, n2⟩ := grew_itemsL fs (datagram f st).2
    refine ⟨(h1.trans h2).wide (by simp [wordL]) ?_, ?_⟩
    · simp only [itemsL, roomL, List.length_cons]; omega
    · simp only [itemsL, roomL, List.length_cons]; omega
theorem grew_pairs : ∀ (k : List Str) (l : Option (List FB)) (st : Builder),
    Grew st (pairs k l st).2.2 (wordP k l) (roomP k l - 7 * (pairs k l st).1.length - 7 * (pairs k l st).2.1.length) ∧
    7 * (pairs k l st).1.length + 7 * (pairs k l st).2.1.length ≤ roomP k l
  | _, none, st => ⟨by simpa [pairs, roomP, wordP] using grew_refl st, by simp [pairs, roomP]⟩
  | ks, some l, st => by simpa [pairs, roomP, wordP] using grew_pairsL ks l st
theorem grew_pairsL : ∀ (k : List Str) (l : List FB) (st : Builder),
    Grew st (pairsL k l st).2.2 (wordPL k l) (roomPL k l - 7 * (pairsL k l st).1.length - 7 * (pairsL k l st).2.1.length) ∧
    7 * (pairsL k l st).1.length + 7 * (pairsL k l st).2.1.length ≤ roomPL k l
  | [], _, st => ⟨by simpa [pairsL, roomPL, wordPL] using grew_refl st, by simp [pairsL, roomPL]⟩
  | _ :: _, [], st => ⟨by simpa [pairsL, roomPL, wordPL] using grew_refl st, by simp [pairsL, roomPL]⟩
  | k :: ks, f :: fs, st => by
    have h1 := grew_string k st
    have h2 := grew_datagram f (createString k st).2
    obtain ⟨h3, n3⟩ := grew_pairsL ks fs (datagram f (createString k st).2).2
    have h4 := (h1.trans h2).trans h3
    simp only [pairsL, roomPL, wordPL]
    revert h4 n3
    rcases pairsL ks fs (datagram f (createString k st).2).2 with ⟨a, b, c⟩
    intro n3 h4
    simp only [List.length_cons] at n3 h4 ⊢
    exact ⟨h4.wide (by omega) (by omega), by omega⟩
end

end Builder

theorem write_size (s p : Str) (f : FB) : s.length + p.length + word f ≤ (write ⟨some s, some p, some f⟩).length ∧
    (write ⟨some s, some p, some f⟩).length ≤ 74 + s.length + p.length + room f := by
  have h1 := Builder.grew_string s Builder.new
  have h2 := Builder.grew_string p (Builder.new.createString s).2
  have h3 := Builder.grew_datagram f ((Builder.new.createString s).2.createString p).2
  have h4 := Builder.grew_table 3 [.offset 8 (Builder.datagram f ((Builder.new.createString s).2.createString p).2).1,
    .offset 6 ((Builder.new.createString s).2.createString p).1, .offset 4 (Builder.new.createString s).1]
    (Builder.datagram f ((Builder.new.createString s).2.createString p).2).2 (by
      intro s hs
      simp only [List.mem_cons, List.not_mem_nil, or_false] at hs
      rcases hs with rfl | rfl | rfl <;> simp [Builder.Slot.Sized, Builder.Slot.num])
  have h5 := ((h1.trans h2).trans h3).trans h4
  have h6 := h5.align (by simp [Builder.new])
  simp only [write]
  generalize Builder.table _ _ = q at h5 h6 ⊢
  have h8 := (Builder.grew_preAlign q.2 4 q.2.minalign h6.1 h6.2).trans (Builder.grew_refer _ q.1)
  have h9 := h5.trans h8
  have := h9.least
  have := h9.most
  simp only [Builder.finish, Builder.new, List.length_nil, List.map_cons, List.map_nil, List.sum_cons, List.sum_nil, Builder.Slot.room] at *
  omega

/-- What is wanted of the table of a document. -/
def Fits (f : FB) (t : Tree) : Prop := room f + 25 ≤ 150 * t.parts + t.letters ∧ word f = t.letters

theorem fits_list : ∀ (ts : List Tree) (fs : List FB), fs.length = ts.length →
    (∀ (i : Nat) (h1 : i < fs.length) (h2 : i < ts.length), Fits fs[i] ts[i]) →
    roomL fs ≤ 150 * Tree.partsL ts + Tree.lettersL ts ∧ wordL fs = Tree.lettersL ts
  | [], [], _, _ => by simp [roomL, wordL, Tree.partsL, Tree.lettersL]
  | t :: ts, f :: fs, hl, h => by
    obtain ⟨h1, h2⟩ := fits_list ts fs (by simpa using hl) (fun i k1 k2 => h (i + 1) (by simpa using k1) (by simpa using k2))
    obtain ⟨h3, h4⟩ := h 0 (by simp) (by simp)
    simp only [List.getElem_cons_zero] at h3 h4
    simp only [roomL, wordL, Tree.partsL, Tree.lettersL]
    omega

theorem fits_dict : ∀ (ds : List (Str × Tree)) (fs : List FB), fs.length = ds.length →
    (∀ (i : Nat) (h1 : i < fs.length) (h2 : i < ds.length), Fits fs[i] ds[i].2) →
    roomPL (ds.map Prod.fst) fs ≤ 150 * Tree.partsD ds + Tree.lettersD ds ∧ wordPL (ds.map Prod.fst) fs = Tree.lettersD ds
  | [], [], _, _ => by simp [roomPL, wordPL, Tree.partsD, Tree.lettersD]
  | (k, t) :: ds, f :: fs, hl, h => by
    obtain ⟨h1, h2⟩ := fits_dict ds fs (by simpa using hl) (fun i k1 k2 => h (i + 1) (by simpa using k1) (by simpa using k2))
    obtain ⟨h3, h4⟩ := h 0 (by simp) (by simp)
    simp only [List.getElem_cons_zero] at h3 h4
    simp only [List.map_cons, roomPL, wordPL, Tree.partsD, Tree.lettersD]
    omega

theorem serialize_fits {h : Heap} {S : Nat → Prop} : ∀ (t : Tree) (n : Nat) (a : Nat), t.depth ≤ n → Rep h S t a →
    ∃ f, Heap.serialize n a h = .ok f h ∧ Fits f t := by
  intro t
  induction t using Tree.ind with
  | empty =>
    intro n a hd hr
    obtain ⟨n, rfl⟩ : ∃ m, n = m + 1 := ⟨n - 1, by simp only [Tree.depth] at hd; omega⟩
    refine ⟨.mk 0 0 none 0 0 false (some []) (some []) (some []), by simp [Heap.serialize, hr.2], by simp [Fits, room, word, roomO, roomL, roomP, roomPL, wordO, wordL, wordP, wordPL, Tree.parts, Tree.letters]⟩
  | value v =>
    intro n a hd hr
    obtain ⟨n, rfl⟩ : ∃ m, n = m + 1 := ⟨n - 1, by simp only [Tree.depth] at hd; omega⟩
    have hn := hr.2
    have hg := on_getVal hn
    have fit : ∀ dt vt s i d b, Fits (.mk dt vt s i d b (some []) (some []) (some [])) (.value (.str (s.getD []))) := by
      intro dt vt s i d b
      cases s <;> simp [Fits, room, word, roomO, roomL, roomP, roomPL, wordO, wordL, wordP, wordPL, Tree.parts, Tree.letters] <;> omega
    cases v with
    | str s =>
      refine ⟨.mk 1 0 (some s) 0 0 false (some []) (some []) (some []), ?_, fit _ _ _ _ _ _⟩
      simp only [Val.ty] at hg
      simp [Heap.serialize, hn, Node.isOfType, Val.ty, hg]
    | int i =>
      refine ⟨.mk 1 1 none i 0 false (some []) (some []) (some []), ?_, fit _ _ none _ _ _⟩
      simp only [Val.ty] at hg
      simp [Heap.serialize, hn, Node.isOfType, Val.ty, hg]
    | dbl d =>
      refine ⟨.mk 1 2 none 0 (FB.wireDbl d) false (some []) (some []) (some []), ?_, fit _ _ none _ _ _⟩
      simp only [Val.ty] at hg
      simp [Heap.serialize, hn, Node.isOfType, Val.ty, hg]
    | bool b =>
      refine ⟨.mk 1 3 none 0 0 b (some []) (some []) (some []), ?_, fit _ _ none _ _ _⟩
      simp only [Val.ty] at hg
      simp [Heap.serialize, hn, Node.isOfType, Val.ty, hg]
    | other m c =>
      refine ⟨.mk 0 0 none 0 0 false (some []) (some []) (some []), ?_, fit _ _ none _ _ _⟩
      simp [Heap.serialize, hn, Node.isOfType, Val.ty]
  | list ts ih =>
    intro n a hd hr
    obtain ⟨n, rfl⟩ : ∃ m, n = m + 1 := ⟨n - 1, by simp only [Tree.depth] at hd; omega⟩
    simp only [Tree.depth] at hd
    obtain ⟨_, ps, hn, hl⟩ := hr
    rw [RepL_iff] at hl
    obtain ⟨fs, hlen, hp⟩ := choose_list (P := fun i f => ∀ (h1 : i < ts.length) (h2 : i < ps.length),
        (deref ps[i] >>= Heap.serialize n) h = .ok f h ∧ Fits f ts[i]) ts.length (by
      intro i hi
      obtain ⟨b, hb, hrb⟩ := hl.2 i hi (by omega)
      have hm := List.getElem_mem hi
      obtain ⟨f, h1, h2⟩ := ih _ hm n b (by have := Tree.depth_mem_list hm; omega) hrb
      exact ⟨f, fun _ _ => ⟨by rw [hb, M.bind_run, deref_some]; exact h1, h2⟩⟩)
    have hmap := mapM_ok (fun (p : Ptr) => deref p >>= Heap.serialize n) ps fs (by omega) (fun i h1 h2 => (hp i h2 (by omega) h1).1)
    refine ⟨.mk 2 0 none 0 0 false (some fs) (some []) (some []), ?_, ?_⟩
    · simp only [Heap.serialize, M.bind_run, M.get_run, hn]
      rw [hmap]; rfl
    · obtain ⟨k1, k2⟩ := fits_list ts fs hlen (fun i h1 h2 => (hp i h1 h2 (by omega)).2)
      simp [Fits, room, word, roomO, roomP, roomPL, wordO, wordP, wordPL, Tree.parts, Tree.letters, k2]
      omega
  | dict ds ih =>
    intro n a hd hr
    obtain ⟨n, rfl⟩ : ∃ m, n = m + 1 := ⟨n - 1, by simp only [Tree.depth] at hd; omega⟩
    simp only [Tree.depth] at hd
    obtain ⟨_, d, hn, hs, hl⟩ := hr
    rw [RepD_iff, RepL_iff] at hl
    simp only [List.length_map] at hl
    obtain ⟨fs, hlen, hp⟩ := choose_list (P := fun i f => ∀ (h1 : i < ds.length) (h2 : i < d.length),
        (deref d[i].2 >>= Heap.serialize n) h = .ok f h ∧ Fits f ds[i].2) ds.length (by
      intro i hi
      obtain ⟨b, hb, hrb⟩ := hl.2.2 i hi (by omega)
      simp only [List.getElem_map] at hb hrb
      have hm := List.getElem_mem hi
      obtain ⟨f, h1, h2⟩ := ih _ hm n b (by have := Tree.depth_mem_dict hm; omega) hrb
      exact ⟨f, fun _ _ => ⟨by rw [hb, M.bind_run, deref_some]; exact h1, h2⟩⟩)
    have hmap := mapM_ok (fun (kp : Str × Ptr) => deref kp.2 >>= Heap.serialize n) d fs (by omega) (fun i h1 h2 => (hp i h2 (by omega) h1).1)
    refine ⟨.mk 3 0 none 0 0 false (some []) (some (d.map Prod.fst)) (some fs), ?_, ?_⟩
    · simp only [Heap.serialize, M.bind_run, M.get_run, hn]
      rw [hmap]; rfl
    · obtain ⟨k1, k2⟩ := fits_dict ds fs hlen (fun i h1 h2 => (hp i h1 h2 (by omega)).2)
      rw [hl.1]
      simp [Fits, room, word, roomO, roomL, roomP, wordO, wordL, wordP, Tree.parts, Tree.letters, k2]
      omega

end LP.Flat
