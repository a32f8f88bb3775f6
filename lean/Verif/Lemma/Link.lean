import Verif.Spec.Link
import Verif.Lemma.RawBytes
import Verif.Prop.Message
/-! Lemmas for the link plugin. -/
namespace LP.Link
open Heap

/-- `o` is the byte string `b`; it owns its array, which is not below `base`; everything else from `base` on is freed. -/
def Buf (base : Nat) (m : RawBytes.Mem) (o : RawBytes.Obj) (b : List UInt8) : Prop :=
  base ≤ m.next ∧
  ((o = ⟨none, 0⟩ ∧ b = [] ∧ ∀ p, base ≤ p → p < m.next → m.block p = .freed) ∨
    ∃ p, o = ⟨some p, b.length⟩ ∧ base ≤ p ∧ p < m.next ∧ m.block p = .live (b.map some) ∧
      ∀ q, base ≤ q → q < m.next → q ≠ p → m.block q = .freed)

theorem append_buf {base : Nat} {m : RawBytes.Mem} {o : RawBytes.Obj} {b : List UInt8} (h : Buf base m o b) (d : List UInt8) :
    ∃ o' m', RawBytes.append o (.ext d) m = .ok o' m' ∧ Buf base m' o' (b ++ d) ∧ ∀ q, q < base → m'.block q = m.block q := by
  obtain ⟨hb, h⟩ := h
  rcases h with ⟨rfl, rfl, hf⟩ | ⟨p, rfl, hbp, hp, hl, hf⟩
  · refine ⟨_, _, RawBytes.append_null_run (RawBytes.yields_ext d m) 0, ⟨by simp only; omega, .inr ⟨m.next, rfl, hb, by simp, by simp [RawBytes.Mem.set], ?_⟩⟩, ?_⟩
    · intro q h1 h2 h3
      simp only [RawBytes.Mem.set, if_neg h3]
      exact hf q h1 (by simp only at h2; omega)
    · intro q hq
      have : q ≠ m.next := by omega
      simp [RawBytes.Mem.set, this]
  · refine ⟨_, _, RawBytes.append_run (RawBytes.yields_ext d m) hp hl, ⟨by simp only; omega, .inr ⟨m.next, by simp, hb, by simp, ?_, ?_⟩⟩, ?_⟩
    · have : m.next ≠ p := by omega
      simp [RawBytes.Mem.set, this]
    · intro q h1 h2 h3
      simp only [RawBytes.Mem.set, if_neg h3]
      split
      · rfl
      · rename_i h4; exact hf q h1 (by simp only at h2; omega) h4
    · intro q hq
      have h1 : q ≠ m.next := by omega
      have h2 : q ≠ p := by omega
      simp [RawBytes.Mem.set, h1, h2]

theorem gather_skipped {base : Nat} : ∀ (ds : List (List UInt8)) (rest : List Part) (m : RawBytes.Mem) (o : RawBytes.Obj) (b : List UInt8),
    ds ≠ [] → Buf base m o b → ∃ o' m', gather (parts ds ++ rest) true o m = .ok (o', rest) m' ∧ Buf base m' o' (b ++ ds.flatten) ∧
      ∀ q, q < base → m'.block q = m.block q
  | [], _, _, _, _, h, _ => absurd rfl h
  | [d], rest, m, o, b, _, hb => by
    obtain ⟨o', m', e, h1, h2⟩ := append_buf hb d
    refine ⟨o', m', ?_, by simpa using h1, h2⟩
    simp [parts, gather, e]
  | d :: d2 :: ds, rest, m, o, b, _, hb => by
    obtain ⟨o1, m1, e1, h1, h2⟩ := append_buf hb d
    obtain ⟨o', m', e, h3, h4⟩ := gather_skipped (d2 :: ds) rest m1 o1 (b ++ d) (by simp) h1
    refine ⟨o', m', ?_, by simpa using h3, fun q hq => by rw [h4 q hq, h2 q hq]⟩
    simp only [parts, List.cons_append, gather, if_true, M.bind_run, e1, e]

theorem gather_run (topic : List UInt8) (ds : List (List UInt8)) (rest : List Part) (m : RawBytes.Mem) :
    ∃ o m', gather (parts (topic :: ds) ++ rest) false ⟨none, 0⟩ m = .ok (o, rest) m' ∧ Buf m.next m' o ds.flatten ∧
      ∀ q, q < m.next → m'.block q = m.block q := by
  have h0 : Buf m.next m ⟨none, 0⟩ [] := ⟨Nat.le_refl _, .inl ⟨rfl, rfl, fun p h1 h2 => by omega⟩⟩
  cases ds with
  | nil => exact ⟨⟨none, 0⟩, m, by simp [parts, gather], by simpa using h0, fun _ _ => rfl⟩
  | cons d ds =>
    obtain ⟨o', m', e, h1, h2⟩ := gather_skipped (d :: ds) rest m ⟨none, 0⟩ [] (by simp) h0
    refine ⟨o', m', ?_, by simpa using h1, h2⟩
    simp [parts, gather, e]

theorem buf_size {base : Nat} {m : RawBytes.Mem} {o : RawBytes.Obj} {b : List UInt8} (h : Buf base m o b) : o.size = b.length := by
  rcases h.2 with ⟨rfl, rfl, _⟩ | ⟨p, rfl, _⟩ <;> rfl

theorem buf_content {base : Nat} {m : RawBytes.Mem} {o : RawBytes.Obj} {b : List UInt8} (h : Buf base m o b) (hb : b ≠ []) :
    content o m = .ok b m := by
  rcases h.2 with ⟨rfl, rfl, _⟩ | ⟨p, rfl, h1, h2, h3, _⟩
  · exact absurd rfl hb
  · simp [content, RawBytes.read, h3, List.take_of_length_le]

theorem buf_dtor {base : Nat} {m : RawBytes.Mem} {o : RawBytes.Obj} {b : List UInt8} (h : Buf base m o b) :
    ∃ m', RawBytes.dtor o m = .ok () m' ∧ m'.next = m.next ∧ (∀ q, q < base → m'.block q = m.block q) ∧
      ∀ q, base ≤ q → q < m'.next → m'.block q = .freed := by
  obtain ⟨h0, h⟩ := h
  rcases h with ⟨rfl, rfl, hf⟩ | ⟨p, rfl, h1, h2, h3, h4⟩
  · exact ⟨m, rfl, rfl, fun _ _ => rfl, hf⟩
  · refine ⟨m.set p .freed, by simp [RawBytes.dtor, RawBytes.delete, h3], rfl, ?_, ?_⟩
    · intro q hq
      have : q ≠ p := by omega
      simp [RawBytes.Mem.set, this]
    · intro q hq hq2
      simp only [RawBytes.Mem.set] at hq2 ⊢
      split
      · rfl
      · rename_i hne; exact h4 q hq hq2 hne

theorem Clean.refl (a : RawBytes.Mem) : Clean a a := ⟨Nat.le_refl _, fun _ _ => rfl, fun q h1 h2 => by omega⟩

theorem Clean.trans {a b c : RawBytes.Mem} (h : Clean a b) (k : Clean b c) : Clean a c := by
  refine ⟨Nat.le_trans h.1 k.1, fun q hq => by rw [k.2.1 q (by have := h.1; omega), h.2.1 q hq], fun q h1 h2 => ?_⟩
  by_cases hq : q < b.next
  · rw [k.2.1 q hq, h.2.2 q h1 hq]
  · exact k.2.2 q (by omega) h2

theorem broken_not_means {f : FB} (hb : Broken f) : ∀ t, ¬ Means f t := by
  induction hb with
  | str => intro t h; cases h <;> simp_all
  | list => intro t h; cases h; simp_all
  | keys => intro t h; cases h; simp_all
  | contents => intro t h; cases h; simp_all
  | @inList v s i d b k c l f hm hf ih =>
    intro t h
    cases h with
    | unknown h => simp at h
    | emptyList => simp at hm
    | @list _ _ _ _ _ _ _ _ ts h1 h2 h3 =>
      obtain ⟨j, hj, rfl⟩ := List.mem_iff_getElem.mp hm
      exact ih _ (h3 j _ ts[j] (by simp [hj]) (by simp))
  | @inDict v s i d b l k c f hm hf ih =>
    intro t h
    cases h with
    | unknown h => simp at h
    | emptyDict h => rcases h with rfl | rfl <;> simp at hm
    | @dict _ _ _ _ _ _ _ _ ms ds h1 h2 h3 h4 h5 h6 h7 =>
      obtain ⟨j, hj, rfl⟩ := List.mem_iff_getElem.mp hm
      rw [List.length_take] at hj
      have hj2 : j < ms.length := by omega
      exact ih _ (h5 j ms[j] _ (by simp) (by rw [List.getElem_take]; exact List.getElem?_eq_getElem (by omega)))

theorem next_assign {h h' : Heap} {t : Tree} {x y : Nat} (ht : Rep h (fun z => z < h.next) t y) (e : Datagram.assign x y h = .ok () h') :
    h.next ≤ h'.next := by
  have hd := Rep.depth_next ht
  obtain ⟨c, h1, hr, hext, hrep⟩ := copy_builds t (h.next + 1) h _ y (by omega) (fun _ p => p) ht
  simp only [Datagram.assign, M.bind_run, Datagram.copyAll, hr, Datagram.assignFromTemp, M.modify_run, Res.ok.injEq, true_and] at e
  rw [← e]; exact hext.1

theorem msg_deserialize {s t : Str} {d : FB} {doc : Tree} (hd : Means d doc) (h : Heap) :
    ∃ m h', Msg.deserialize ⟨some s, some t, some d⟩ h = .ok m h' ∧ m.sender = s ∧ m.topic = t ∧
      h.next ≤ h'.next ∧ (∀ x, x < h.next → h'.node x = h.node x) ∧ Rep h' (fun x => h.next ≤ x ∧ x < h'.next) doc m.dg := by
  rcases deserialize_spec d with ⟨hb, _⟩ | ⟨_, u, hu, hs⟩
  · exact absurd hd (broken_not_means hb doc)
  · cases Means.unique hu hd
    obtain ⟨p, hp, e2, hext, hrp, _⟩ := hs h
    obtain ⟨c, h3, e3, hfr, hrc⟩ := C01_copyCtor_faithful (Rep.mono (fun x hx => hx.2) (fun _ _ => rfl) _ _ hrp)
    have hle : h.next ≤ hp.next := hext.1
    have hm := Rep.mem hrc
    refine ⟨⟨s, t, c⟩, h3, by simp [Msg.deserialize, Msg.ctor, e2, e3], rfl, rfl, by omega,
      fun x hx => by rw [hfr x (by omega), hext.2 x hx], Rep.mono (fun x hx => ⟨by omega, hx.2⟩) (fun _ _ => rfl) _ _ hrc⟩

/-- Receiving one ZMQ message. -/
theorem receive_run {c : Codec} {q : List (List UInt8)} {x : Option Content} (hx : Brings c q x) (rest : List Part) (r : Msg) (s : Memory)
    (hr : r.dg < s.heap.next) :
    ∃ s', Clean s.mem s'.mem ∧ s.heap.next ≤ s'.heap.next ∧ (∀ y, y < s.heap.next → y ≠ r.dg → s'.heap.node y = s.heap.node y) ∧
      (x = none → s'.heap = s.heap ∧ receiveMessage c true (parts q ++ rest) r s = .ok (false, r, rest) s') ∧
      ∀ k, x = some k → receiveMessage c true (parts q ++ rest) r s = .ok (true, ⟨k.sender, k.topic, r.dg⟩, rest) s' ∧
        Rep s'.heap (fun y => y = r.dg ∨ s.heap.next ≤ y ∧ y < s'.heap.next) k.doc r.dg := by
  cases hx with
  | @nothing topic ps h =>
    obtain ⟨o, m1, e1, hb, hq⟩ := gather_run topic ps rest s.mem
    obtain ⟨m2, e2, hn, hq2, hf⟩ := buf_dtor hb
    refine ⟨⟨s.heap, m2⟩, ⟨by simp only [hn]; exact hb.1, fun q hq' => by rw [hq2 q hq', hq q hq'], hf⟩, Nat.le_refl _, fun _ _ _ => rfl,
      fun _ => ⟨rfl, ?_⟩, fun k hk => by cases hk⟩
    have hsz := buf_size hb
    rw [h] at hsz
    simp [receiveMessage, onBytes, e1, hsz, e2]
  | @message topic ps sd tp d doc h hdec hd =>
    obtain ⟨o, m1, e1, hb, hq⟩ := gather_run topic ps rest s.mem
    obtain ⟨m2, e2, hn, hq2, hf⟩ := buf_dtor hb
    have hsz := buf_size hb
    have hpos : 0 < o.size := by rw [hsz]; exact List.length_pos_iff.mpr h
    have hc := buf_content hb h
    obtain ⟨t, h1, e3, ht1, ht2, hle, hfr, hrep⟩ := msg_deserialize (s := sd) (t := tp) hd s.heap
    obtain ⟨h2, e4, hfr2, hrep2⟩ := C01_assign_faithful (x := r.dg) (y := t.dg) (by omega) (Rep.mono (fun x hx => hx.2) (fun _ _ => rfl) _ _ hrep)
    have hle2 := next_assign (Rep.mono (fun x hx => hx.2) (fun _ _ => rfl) _ _ hrep) e4
    refine ⟨⟨h2, m2⟩, ⟨by simp only [hn]; exact hb.1, fun q hq' => by rw [hq2 q hq', hq q hq'], hf⟩, Nat.le_trans hle hle2,
      fun y h3 h4 => by rw [hfr2 y (by omega) h4, hfr y h3], (fun hk => by cases hk), fun k hk => ?_⟩
    cases hk
    refine ⟨?_, Rep.mono (fun x hx => hx.imp id (fun hx => ⟨by omega, hx.2⟩)) (fun _ _ => rfl) _ _ hrep2⟩
    simp [receiveMessage, onBytes, onHeap, e1, hpos, hc, hdec, e3, e4, e2, ht1, ht2]

/-- The objects that were there, except `a`, are untouched. -/
def Keeps (a : Nat) (h h' : Heap) : Prop := h.next ≤ h'.next ∧ ∀ y, y < h.next → y ≠ a → h'.node y = h.node y

theorem Keeps.trans {a : Nat} {h h' h'' : Heap} (x : Keeps a h h') (y : Keeps a h' h'') : Keeps a h h'' :=
  ⟨Nat.le_trans x.1 y.1, fun z hz hn => by rw [y.2 z (Nat.lt_of_lt_of_le hz x.1) hn, x.2 z hz hn]⟩

theorem Untouched.trans {h h' h'' : Heap} (x : Untouched h h') (y : Untouched h' h'') : Untouched h h'' :=
  ⟨Nat.le_trans x.1 y.1, fun z hz => by rw [y.2 z (Nat.lt_of_lt_of_le hz x.1), x.2 z hz]⟩

theorem Carries.same {h h' : Heap} {n : Str} {p : Msg} {x : Content} (k : Carries h n p x) (s : Untouched h h') : Carries h' n p x :=
  ⟨k.1, k.2.1, Rep.mono (S := fun a => a < h.next) (fun _ hz => Nat.lt_of_lt_of_le hz s.1) (fun y hy => s.2 y hy) _ _ k.2.2⟩

theorem AllCarry.same {h h' : Heap} {n : Str} (s : Untouched h h') : ∀ {ps : List Msg} {xs : List Content}, AllCarry h n ps xs → AllCarry h' n ps xs
  | [], [], _ => trivial
  | _ :: _, _ :: _, k => ⟨k.1.same s, AllCarry.same s k.2⟩

theorem AllCarry.append {h : Heap} {n : Str} : ∀ {ps qs : List Msg} {xs ys : List Content}, AllCarry h n ps xs → AllCarry h n qs ys →
    AllCarry h n (ps ++ qs) (xs ++ ys)
  | [], _, [], _, _, k => k
  | _ :: _, _, _ :: _, _, j, k => ⟨j.1, AllCarry.append j.2 k⟩

/-- One half of an iteration: `a` is the datagram of the local variable `receivedMessage`. -/
theorem poll_run {c : Codec} {l : St} (hl : l.context = true) {q : List (List UInt8)} {x : Option Content} (hx : Brings c q x)
    (rest : List Part) (r : Msg) (s : Memory) (hr : r.dg < s.heap.next) :
    ∃ ps r' s', poll c l true (parts q ++ rest) r s = .ok (ps, r', rest) s' ∧ r'.dg = r.dg ∧ Clean s.mem s'.mem ∧
      Keeps r.dg s.heap s'.heap ∧ ∀ h', Keeps r.dg s'.heap h' → AllCarry h' l.ident ps x.toList := by
  obtain ⟨s1, hc, hn, hk, h0, h1⟩ := receive_run hx rest r s hr
  cases x with
  | none =>
    obtain ⟨e1, e2⟩ := h0 rfl
    exact ⟨[], r, s1, by simp [poll, hl, e2], rfl, hc, ⟨hn, hk⟩, fun _ _ => trivial⟩
  | some k =>
    obtain ⟨e, hrep⟩ := h1 k rfl
    obtain ⟨d, h2, e2, hf, hr2⟩ := C01_copyCtor_faithful (h := s1.heap) (t := k.doc) (a := r.dg)
      (Rep.mono (fun y hy => by rcases hy with rfl | hy <;> omega) (fun _ _ => rfl) _ _ hrep)
    have hm := Rep.mem hr2
    refine ⟨[⟨l.ident ++ bs "/" ++ k.sender, k.topic, d⟩], ⟨l.ident ++ bs "/" ++ k.sender, k.topic, r.dg⟩, ⟨h2, s1.mem⟩, ?_, rfl, hc,
      ⟨by simp only; omega, fun y hy hn' => by rw [hf y (by omega), hk y hy hn']⟩, fun h' hk' => ⟨⟨by simp [bs, slash], rfl, ?_⟩, trivial⟩⟩
    · simp [poll, hl, e, onHeap, Msg.prependSender, Msg.copy, e2]
    · exact Rep.mono (S := fun y => s1.heap.next ≤ y ∧ y < h2.next) (fun y hy => Nat.lt_of_lt_of_le hy.2 hk'.1)
        (fun y hy => hk'.2 y hy.2 (by have := hy.1; omega)) _ _ hr2

theorem poll_closed (c : Codec) (l : St) (w : List Part) (r : Msg) (s : Memory) : poll c l false w r s = .ok ([], r, w) s := by
  cases h : l.context <;> simp [poll, h, receiveMessage]

theorem poll_nothing (c : Codec) (l : St) (o : Bool) (r : Msg) (s : Memory) : poll c l o [] r s = .ok ([], r, []) s := by
  cases h : l.context <;> cases o <;> simp [poll, h, receiveMessage, onBytes, gather, RawBytes.dtor]

/-- One half of an iteration on a whole queue. -/
theorem poll_queue {c : Codec} {l : St} (hl : l.context = true) {qs : List (List (List UInt8))} {xs : List (Option Content)}
    (hx : AllBring c qs xs) (o : Bool) (ho : o = true ∨ qs = []) (r : Msg) (s : Memory) (hr : r.dg < s.heap.next) :
    ∃ ps r' s', poll c l o (stream qs) r s = .ok (ps, r', stream qs.tail) s' ∧ r'.dg = r.dg ∧ Clean s.mem s'.mem ∧
      Keeps r.dg s.heap s'.heap ∧ ∀ h', Keeps r.dg s'.heap h' → AllCarry h' l.ident ps ((xs.take 1).filterMap id) := by
  cases hx with
  | nil => exact ⟨[], r, s, poll_nothing c l o r s, rfl, Clean.refl _, ⟨Nat.le_refl _, fun _ _ _ => rfl⟩, fun _ _ => trivial⟩
  | @cons q qs x xs hq hqs =>
    have ho : o = true := ho.resolve_right (by simp)
    subst ho
    obtain ⟨ps, r', s', e, h1, h2, h3, h4⟩ := poll_run hl hq (stream qs) r s hr
    refine ⟨ps, r', s', e, h1, h2, h3, fun h' hk => ?_⟩
    have := h4 h' hk
    cases x <;> simpa using this

/-- One iteration on both queues. -/
theorem iteration_run {c : Codec} {l : St} (hl : l.context = true) {qs ks : List (List (List UInt8))} {xs ys : List (Option Content)}
    (hx : AllBring c qs xs) (hy : AllBring c ks ys) (ho : l.serverSub = true ∨ qs = []) (hk : l.clientSub = true ∨ ks = []) (s : Memory) :
    ∃ ps s', iteration c l (stream qs) (stream ks) s = .ok (ps, stream qs.tail, stream ks.tail) s' ∧ Clean s.mem s'.mem ∧
      Untouched s.heap s'.heap ∧ AllCarry s'.heap l.ident ps ((xs.take 1 ++ ys.take 1).filterMap id) := by
  let s0 : Memory := ⟨{ (s.heap.put s.heap.next Node.empty) with next := s.heap.next + 1 }, s.mem⟩
  have hex := ext_alloc s.heap Node.empty
  obtain ⟨p1, r1, s1, e1, hd1, c1, k1, a1⟩ := poll_queue hl hx l.serverSub ho ⟨[], [], s.heap.next⟩ s0 (by simp [s0])
  have hlt : r1.dg < s1.heap.next := by rw [hd1]; have := k1.1; simp only [s0] at this; simp only; omega
  obtain ⟨p2, r2, s2, e2, hd2, c2, k2, a2⟩ := poll_queue hl hy l.clientSub hk r1 s1 hlt
  rw [hd1] at k2
  simp only at k1 k2
  have ks0 : Untouched s.heap s0.heap := ⟨Nat.le_succ _, fun y hy => hex.2 y hy⟩
  have kall := k1.trans k2
  refine ⟨p1 ++ p2, s2, ?_, c1.trans c2, ⟨by have := kall.1; simp only [s0] at this; omega, fun y hy => ?_⟩, ?_⟩
  · simp only [iteration, M.bind_run, onHeap, alloc_run]
    rw [e1]; simp only; rw [e2]; rfl
  · rw [kall.2 y (by simp only [s0]; omega) (by omega)]; exact ks0.2 y hy
  · rw [List.filterMap_append]
    exact AllCarry.append (a1 _ k2) (a2 _ ⟨Nat.le_refl _, fun _ _ _ => rfl⟩)

theorem turns_take {α : Type} : ∀ (xs ys : List α), turns xs ys = xs.take 1 ++ ys.take 1 ++ turns xs.tail ys.tail
  | [], [] => rfl
  | [], y :: ys => by simp [turns]
  | x :: xs, [] => by cases xs <;> simp [turns]
  | x :: xs, y :: ys => by simp [turns]

theorem AllBring.tail {c : Codec} {qs : List (List (List UInt8))} {xs : List (Option Content)} (h : AllBring c qs xs) :
    AllBring c qs.tail xs.tail := by
  cases h with
  | nil => exact .nil
  | cons _ h => exact h

theorem AllBring.length {c : Codec} {qs : List (List (List UInt8))} {xs : List (Option Content)} (h : AllBring c qs xs) :
    qs.length = xs.length := by
  induction h with
  | nil => rfl
  | cons _ _ ih => simp [ih]

/-- Enough iterations to work off both queues. -/
theorem iterations_run {c : Codec} {l : St} (hl : l.context = true) : ∀ (n : Nat) {qs ks : List (List (List UInt8))} {xs ys : List (Option Content)},
    AllBring c qs xs → AllBring c ks ys → (l.serverSub = true ∨ qs = []) → (l.clientSub = true ∨ ks = []) →
    qs.length ≤ n → ks.length ≤ n → ∀ (s : Memory),
    ∃ ps s', iterations c l n (stream qs) (stream ks) s = .ok (ps, [], []) s' ∧ Clean s.mem s'.mem ∧
      Untouched s.heap s'.heap ∧ AllCarry s'.heap l.ident ps ((turns xs ys).filterMap id)
  | 0, qs, ks, xs, ys, hx, hy, _, _, h1, h2, s => by
    have hq : qs = [] := List.length_eq_zero_iff.mp (by omega)
    have hk : ks = [] := List.length_eq_zero_iff.mp (by omega)
    subst hq; subst hk
    cases hx; cases hy
    exact ⟨[], s, rfl, Clean.refl _, ⟨Nat.le_refl _, fun _ _ => rfl⟩, trivial⟩
  | n + 1, qs, ks, xs, ys, hx, hy, ho, hk, h1, h2, s => by
    obtain ⟨p, s1, e1, c1, k1, a1⟩ := iteration_run hl hx hy ho hk s
    have tl : ∀ {b : Bool} {zs : List (List (List UInt8))}, (b = true ∨ zs = []) → (b = true ∨ zs.tail = []) := by
      intro b zs h; rcases h with h | rfl
      · exact .inl h
      · exact .inr rfl
    obtain ⟨q, s2, e2, c2, k2, a2⟩ := iterations_run hl n hx.tail hy.tail (tl ho) (tl hk) (by simp; omega) (by simp; omega) s1
    refine ⟨p ++ q, s2, ?_, c1.trans c2, k1.trans k2, ?_⟩
    · simp only [iterations, M.bind_run, e1, e2]; rfl
    · rw [turns_take, List.filterMap_append]
      exact AllCarry.append (AllCarry.same k2 a1) a2

/-- An unreadable payload. -/
theorem receive_unreadable {c : Codec} {q : List (List UInt8)} (hq : Unreadable c q) (rest : List Part) (r : Msg) (s : Memory) :
    receiveMessage c true (parts q ++ rest) r s = .ub := by
  have main : ∀ (topic : List UInt8) (ps : List (List UInt8)), ps.flatten ≠ [] →
      (c.dec ps.flatten = none ∨ ∃ f, c.dec ps.flatten = some f ∧ ∀ h, Msg.deserialize f h = .ub) →
      receiveMessage c true (parts (topic :: ps) ++ rest) r s = .ub := by
    intro topic ps h hd
    obtain ⟨o, m1, e1, hb, hq⟩ := gather_run topic ps rest s.mem
    have hpos : 0 < o.size := by rw [buf_size hb]; exact List.length_pos_iff.mpr h
    have hc := buf_content hb h
    rcases hd with hd | ⟨f, hd, hf⟩
    · simp [receiveMessage, onBytes, e1, hpos, hc, hd]
    · simp [receiveMessage, onBytes, onHeap, e1, hpos, hc, hd, hf]
  cases hq with
  | bytes h hd => exact main _ _ h (.inl hd)
  | sender h hd hf => exact main _ _ h (.inr ⟨_, hd, fun h => (C17_unverified_buffers _ h).1.mpr (.inl hf)⟩)
  | topic h hd hf => exact main _ _ h (.inr ⟨_, hd, fun h => (C17_unverified_buffers _ h).1.mpr (.inr (.inl hf))⟩)
  | datagram h hd hf => exact main _ _ h (.inr ⟨_, hd, fun h => (C17_unverified_buffers _ h).1.mpr (.inr (.inr (.inl hf)))⟩)
  | broken h hd hf hb => exact main _ _ h (.inr ⟨_, hd, fun h => (C17_unverified_buffers _ h).1.mpr (.inr (.inr (.inr ⟨_, hf, hb⟩)))⟩)

end LP.Link
