import Verif.Lemma.FlatBomb
import Verif.Lemma.FlatSize
import Verif.Spec.Flat
import Verif.Prop.Message
import Verif.Prop.Link
/-! # C129: messages as bytes -/
namespace LP.Flat
open Heap Tree

theorem write_read {s p : Str} {f : FB} (hf : Plain f) : write ⟨some s, some p, some f⟩ ≠ [] ∧
    ((write ⟨some s, some p, some f⟩).length < 2 ^ 31 → message (write ⟨some s, some p, some f⟩) = .ok ⟨some s, some p, some f⟩) := by
  obtain ⟨a1, a2, a3, a4⟩ := Builder.createString_spec s Builder.new
  obtain ⟨b1, b2, b3, b4⟩ := Builder.createString_spec p (Builder.new.createString s).2
  have w : ((Builder.new.createString s).2.createString p).2.WF := ⟨fun o ho => by
    simp [Builder.createString_vtables, Builder.new] at ho, Builder.align_createString (Builder.align_createString (by simp [Builder.new]))⟩
  obtain ⟨c1, c2, _, c3⟩ := Builder.good hf _ w
  obtain ⟨m1, _, m3⟩ := message_read c2 (a3.ext (b1.trans c1)) (b3.ext c1) a4 b4 c3
  exact ⟨m1, m3⟩

/-- The message serialises, to a table of the kind that is read back. -/
theorem serialize_run {h : Heap} {m : Msg} {t : Tree} (hm : Rep h (fun x => x < h.next) t m.dg) :
    ∃ f, Plain f ∧ m.serialize h = .ok ⟨some m.sender, some m.topic, some f⟩ h ∧ ¬ Broken f ∧ Means f t.wire := by
  have hd := Rep.depth_next hm
  obtain ⟨f, e1, nb, hf⟩ := serialize_main t (h.next + 1) m.dg (by omega) hm
  exact ⟨f, serialize_plain _ _ _ _ _ e1, by simp [Msg.serialize, Datagram.serialize, e1], nb, hf⟩

/-- A message whose bytes stay below 2 GiB is read back from them, in any process and with anything behind them, with the
same sender and topic and the document serialisation preserves; nothing existing is touched on either side. -/
theorem C129_round_trip {h : Heap} {m : Msg} {t : Tree} (hm : Rep h (fun x => x < h.next) t m.dg) :
    ∃ b, serialize m h = .ok b h ∧ b ≠ [] ∧ (b.length < 2 ^ 31 → ∀ (y : Bytes) (h2 : Heap), ∃ m2 h3,
      deserialize (b ++ y) h2 = .ok m2 h3 ∧ m2.sender = m.sender ∧ m2.topic = m.topic ∧ (∀ x, x < h2.next → h3.node x = h2.node x) ∧
      Rep h3 (fun x => h2.next ≤ x ∧ x < h3.next) t.wire m2.dg) := by
  obtain ⟨f, hf, e1, nb, hmf⟩ := serialize_run hm
  obtain ⟨w1, w2⟩ := write_read (s := m.sender) (p := m.topic) hf
  refine ⟨_, by simp only [serialize, M.bind_run, e1, M.pure_run], w1, fun hl y h2 => ?_⟩
  obtain ⟨g, m2, h3, g1, g2, g3, g4, g5, g6⟩ := C17_message_round_trip hm h2
  rw [e1] at g1
  simp only [Res.ok.injEq, and_true] at g1
  subst g1
  refine ⟨m2, h3, ?_, g3, g4, g5, g6⟩
  simp only [deserialize, message_append (w2 hl) y, g2]

/-- One link's message is the other link's message, with the bytes FlatBuffers puts on the wire: however they are split
into parts, the receiving side ends up with the same sender, topic and document. -/
theorem C129_link {h : Heap} {m : Msg} {t : Tree} (hm : Rep h (fun x => x < h.next) t m.dg) :
    ∃ b, Link.sendZmqMessage codec true m h = .ok [bs "A", b] h ∧
      (b.length < 2 ^ 31 → ∀ (first : List UInt8) (ps : List (List UInt8)), ps.flatten = b →
        ∀ (rest : List Link.Part) (r : Msg) (s : Link.Memory), r.dg < s.heap.next →
        ∃ s', Link.receiveMessage codec true (Link.parts (first :: ps) ++ rest) r s = .ok (true, ⟨m.sender, m.topic, r.dg⟩, rest) s' ∧
          Rep s'.heap (fun x => x < s'.heap.next) t.wire r.dg ∧ (∀ x, x < s.heap.next → x ≠ r.dg → s'.heap.node x = s.heap.node x)) := by
  obtain ⟨f, hf, e1, nb, hmf⟩ := serialize_run hm
  obtain ⟨w1, w2⟩ := write_read (s := m.sender) (p := m.topic) hf
  obtain ⟨g, g1, g2, g3⟩ := Link.C55_round_trip codec hm
  rw [e1] at g1
  simp only [Res.ok.injEq, and_true] at g1
  subst g1
  refine ⟨_, g2, fun hl first ps hp rest r s hr => ?_⟩
  have hd : codec.dec (codec.enc ⟨some m.sender, some m.topic, some f⟩) = some ⟨some m.sender, some m.topic, some f⟩ := by
    simp only [codec]
    rw [w2 hl]
  obtain ⟨s', k1, k2, k3, _⟩ := g3 hd w1 first ps hp rest r s hr
  exact ⟨s', k1, k2, k3⟩

/-- How many bytes a message takes: at least its text, and at most 50 bytes, the text and 150 bytes for each datagram in it. -/
theorem C129_size {h : Heap} {m : Msg} {t : Tree} (hm : Rep h (fun x => x < h.next) t m.dg) :
    ∃ b, serialize m h = .ok b h ∧ m.sender.length + m.topic.length + t.letters ≤ b.length ∧
      b.length ≤ 50 + m.sender.length + m.topic.length + t.letters + 150 * t.parts := by
  have hd := Rep.depth_next hm
  obtain ⟨f, e1, hf⟩ := serialize_fits t (h.next + 1) m.dg (by omega) hm
  have e2 : m.serialize h = .ok ⟨some m.sender, some m.topic, some f⟩ h := by simp [Msg.serialize, Datagram.serialize, e1]
  obtain ⟨w1, w2⟩ := write_size m.sender m.topic f
  refine ⟨write ⟨some m.sender, some m.topic, some f⟩, by simp only [serialize, M.bind_run, e2, M.pure_run], ?_, ?_⟩
  · rw [← hf.2]; exact w1
  · have := hf.1; omega

/-- So whatever has little enough text and few enough parts arrives at the other link, whole. -/
theorem C129_arrives {h : Heap} {m : Msg} {t : Tree} (hm : Rep h (fun x => x < h.next) t m.dg)
    (hs : 50 + m.sender.length + m.topic.length + t.letters + 150 * t.parts < 2 ^ 31) :
    ∃ b, Link.sendZmqMessage codec true m h = .ok [bs "A", b] h ∧
      ∀ (first : List UInt8) (ps : List (List UInt8)), ps.flatten = b →
        ∀ (rest : List Link.Part) (r : Msg) (s : Link.Memory), r.dg < s.heap.next →
        ∃ s', Link.receiveMessage codec true (Link.parts (first :: ps) ++ rest) r s = .ok (true, ⟨m.sender, m.topic, r.dg⟩, rest) s' ∧
          Rep s'.heap (fun x => x < s'.heap.next) t.wire r.dg ∧ (∀ x, x < s.heap.next → x ≠ r.dg → s'.heap.node x = s.heap.node x) := by
  obtain ⟨b, e, hr⟩ := C129_link hm
  obtain ⟨b', e', _, hb⟩ := C129_size hm
  have : b = b' := by
    obtain ⟨f, _, e1, _, _⟩ := serialize_run hm
    simp only [serialize, M.bind_run, e1, M.pure_run, Res.ok.injEq, and_true] at e'
    simp [Link.sendZmqMessage, e1] at e
    rw [← e, ← e']; rfl
  exact ⟨b, e, hr (by rw [this]; omega)⟩

/-- Nothing is verified, but reading comes to an end whatever the bytes are: it yields a message or is undefined
behaviour; it neither throws nor goes on for ever. -/
theorem C129_any_bytes (b : Bytes) (h : Heap) : deserialize b h = .ub ∨ ∃ m h', deserialize b h = .ok m h' := by
  unfold deserialize
  cases hb : message b with
  | fuel => exact absurd hb (message_fuel b)
  | outside => exact .inl rfl
  | ok f =>
    exact (C17_unverified_buffers f h).2

/-- Bytes behind a readable message are ignored; of a readable message that is cut off somewhere, reading what is left is
undefined behaviour or yields the very same message, never another one. -/
theorem C129_cut_off (b y : Bytes) (h : Heap) {m : Msg} {h' : Heap} :
    (deserialize b h = .ok m h' → deserialize (b ++ y) h = .ok m h') ∧
    (deserialize (b ++ y) h = .ok m h' → deserialize b h = .ub ∨ deserialize b h = .ok m h') := by
  have key : ∀ {m' : Msg} {h'' : Heap}, deserialize b h = .ok m' h'' → deserialize (b ++ y) h = .ok m' h'' := by
    intro m' h'' e
    unfold deserialize at e ⊢
    cases hb : message b with
    | fuel => rw [hb] at e; cases e
    | outside => rw [hb] at e; cases e
    | ok f => rw [hb] at e; rw [message_append hb y]; exact e
  refine ⟨key, fun e => ?_⟩
  rcases C129_any_bytes b h with hu | ⟨m', h'', e'⟩
  · exact .inl hu
  · rw [key e'] at e
    exact .inr (e'.trans e)

/-- Fewer than ten bytes are undefined behaviour (a link reads every payload that is not empty). -/
theorem C129_too_short (b : Bytes) (h : Heap) (hb : b.length < 10) : deserialize b h = .ub := by
  unfold deserialize
  cases e : message b with
  | fuel => exact absurd e (message_fuel b)
  | outside => rfl
  | ok f =>
    obtain ⟨t, _, e⟩ := bind_ok_iff.mp e
    obtain ⟨s, _, e⟩ := bind_ok_iff.mp e
    obtain ⟨p, _, e⟩ := bind_ok_iff.mp e
    obtain ⟨r, hr, e⟩ := bind_ok_iff.mp e
    cases r with
    | none =>
      simp at e
      subst e
      simp only
      exact (C17_unverified_buffers _ h).1.mpr (.inr (.inr (.inl rfl)))
    | some q =>
      exfalso
      obtain ⟨u, hu, hr⟩ := bind_ok_iff.mp hr
      cases u with
      | none => simp at hr
      | some u =>
        obtain ⟨z, _, hu⟩ := bind_ok_iff.mp hu
        simp only at hu
        split at hu
        · simp at hu
        · obtain ⟨w, _, hu⟩ := bind_ok_iff.mp hu
          split at hu
          · obtain ⟨o, ho, hu⟩ := bind_ok_iff.mp hu
            have := uint_ok ho
            omega
          · simp at hu

theorem le_set3 (a b c d : UInt8) : le [a, b, c, d] = a.toNat + 256 * (b.toNat + 256 * (c.toNat + 256 * d.toNat)) := by
  simp [le]

theorem far_root {b : Bytes} {n : Nat} (h : Heap) (hu : b.length < 2 ^ 31) (e1 : target b 0 = .ok n) (hbig : 255 * 2 ^ 24 ≤ n) :
    deserialize b h = .ub := by
  unfold deserialize
  cases e : message b with
  | fuel => exact absurd e (message_fuel _)
  | outside => rfl
  | ok f =>
    exfalso
    obtain ⟨t, ht, e⟩ := bind_ok_iff.mp e
    rw [e1] at ht
    simp only [Rd.ok.injEq] at ht
    obtain ⟨s, hs, _⟩ := bind_ok_iff.mp e
    obtain ⟨r, hr, _⟩ := bind_ok_iff.mp hs
    obtain ⟨v, hv, _⟩ := bind_ok_iff.mp hr
    have := (field_ok hv).1
    omega

/-- One wrong byte suffices: with its fourth byte set, any buffer below 2 GiB makes reading undefined behaviour. -/
theorem C129_one_bad_byte (b : Bytes) (h : Heap) (hl : 4 ≤ b.length) (hu : b.length < 2 ^ 31) : deserialize (b.set 3 255) h = .ub := by
  obtain ⟨x0, x1, x2, x3, ys, rfl⟩ : ∃ x0 x1 x2 x3 ys, b = x0 :: x1 :: x2 :: x3 :: ys := by
    match b, hl with
    | x0 :: x1 :: x2 :: x3 :: ys, _ => exact ⟨x0, x1, x2, x3, ys, rfl⟩
  have e1 : target (x0 :: x1 :: x2 :: 255 :: ys) 0 = .ok (le [x0, x1, x2, 255]) := by
    simp [target, uint, rd]
  have hbig : 255 * 2 ^ 24 ≤ le [x0, x1, x2, 255] := by
    rw [le_set3]
    have : (255 : UInt8).toNat = 255 := rfl
    rw [this]
    omega
  have hset : (x0 :: x1 :: x2 :: x3 :: ys).set 3 255 = x0 :: x1 :: x2 :: 255 :: ys := rfl
  have hlen : (x0 :: x1 :: x2 :: 255 :: ys).length = (x0 :: x1 :: x2 :: x3 :: ys).length := rfl
  rw [hset]
  rw [← hlen] at hu
  clear hset hlen
  generalize x0 :: x1 :: x2 :: 255 :: ys = b at e1 hu ⊢
  generalize le [x0, x1, x2, 255] = n at e1 hbig
  exact far_root h hu e1 hbig

/-- Reading a word where it is not aligned is undefined behaviour as well: of a buffer whose first byte is not a multiple of
four, the table it refers to is not even looked at. -/
theorem C129_misaligned (x : UInt8) (b : Bytes) (h : Heap) (hx : x.toNat % 4 ≠ 0) : deserialize (x :: b) h = .ub := by
  unfold deserialize
  cases e : message (x :: b) with
  | fuel => exact absurd e (message_fuel _)
  | outside => rfl
  | ok f =>
    exfalso
    obtain ⟨t, ht, e⟩ := bind_ok_iff.mp e
    obtain ⟨o, ho, ht⟩ := bind_ok_iff.mp ht
    obtain ⟨s, hs, _⟩ := bind_ok_iff.mp e
    obtain ⟨r, hr, _⟩ := bind_ok_iff.mp hs
    obtain ⟨v, hv, _⟩ := bind_ok_iff.mp hr
    obtain ⟨u, hu, _⟩ := bind_ok_iff.mp hv
    have h1 : o % 4 = x.toNat % 4 := by
      have hl := uint_ok ho
      simp only [uint, Nat.zero_mod, if_true] at ho
      obtain ⟨w, hw, ho⟩ := bind_ok_iff.mp ho
      simp only [rd, if_pos hl, List.drop_zero, Rd.ok.injEq] at hw
      simp only [Rd.pure_eq, Rd.ok.injEq] at ho
      subst hw; subst ho
      simp only [List.take_succ_cons, le]
      omega
    simp only [Rd.pure_eq, Rd.ok.injEq, Nat.zero_add] at ht
    subst ht
    simp only [uint] at hu
    rw [if_neg (by omega)] at hu
    cases hu

theorem full_values (k : Nat) : (full k).values = 2 ^ k := by
  induction k with
  | zero => rfl
  | succ k ih => simp [full, values, valuesL, ih]; omega

theorem full_means (k : Nat) : Means (fullFB k) (full k) := by
  induction k with
  | zero => exact .bool
  | succ k ih =>
    refine .list (by simp) rfl (fun i f t hf ht => ?_)
    match i with
    | 0 => simp at hf ht; subst hf; subst ht; exact ih
    | 1 => simp at hf ht; subst hf; subst ht; exact ih
    | i + 2 => simp at hf

theorem full_sound (k : Nat) : ¬ Broken (fullFB k) := by
  induction k with
  | zero => intro hb; cases hb
  | succ k ih =>
    intro hb
    cases hb with
    | inList hf hb => simp at hf; exact ih (hf ▸ hb)

theorem on_next {α : Type} (a : Nat) (m : M (Node Ptr) α) (h h' : Heap) (x : α) (e : on a m h = .ok x h') : h'.next = h.next := by
  unfold on at e
  split at e
  · cases e; rfl
  all_goals cases e

theorem full_objects (k : Nat) : ∀ (n : Nat) (h h' : Heap) (a : Nat), Heap.deserialize n (fullFB k) h = .ok a h' → h.next + 2 ^ k ≤ h'.next := by
  induction k with
  | zero =>
    intro n h h' a e
    cases n with
    | zero => cases e
    | succ n =>
      simp only [fullFB, Heap.deserialize, M.bind_run, alloc_run] at e
      simp at e
      split at e
      · rename_i x h1 e1
        have := on_next _ _ _ _ _ e1
        cases e
        simp at this ⊢
        omega
      all_goals cases e
  | succ k ih =>
    intro n h h' a e
    cases n with
    | zero => cases e
    | succ n =>
      simp only [fullFB, Heap.deserialize, M.bind_run, alloc_run] at e
      simp [M.each] at e
      cases e1 : Heap.deserialize n (fullFB k) { next := h.next + 1, node := (h.put h.next Node.empty).node } with
      | ok a1 h1 =>
        simp only [e1] at e
        cases e2 : on h.next (Node.add (some a1)) h1 with
        | ok u2 h2 =>
          simp only [e2] at e
          cases e3 : Heap.deserialize n (fullFB k) h2 with
          | ok a3 h3 =>
            simp only [e3] at e
            cases e4 : on h.next (Node.add (some a3)) h3 with
            | ok u4 h4 =>
              simp only [e4, Res.ok.injEq] at e
              have q1 := ih _ _ _ _ e1
              have q2 := on_next _ _ _ _ _ e2
              have q3 := ih _ _ _ _ e3
              have q4 := on_next _ _ _ _ _ e4
              simp only at q1
              rw [← e.2, q4]
              omega
            | _ => simp [e4] at e
          | _ => simp [e3] at e
        | _ => simp [e2] at e
      | _ => simp [e1] at e

/-- A small buffer can stand for a huge message: `k` levels of a list whose two elements are the same table take at most
400 + 208 k bytes, and reading them creates more than 2 to the power of k objects. -/
theorem C129_blow_up (k : Nat) (hk : 400 + 208 * k < 2 ^ 31) : ∃ b : Bytes, b.length ≤ 400 + 208 * k ∧ ∀ h : Heap, ∃ m h' t,
    deserialize b h = .ok m h' ∧ Rep h' (fun x => h.next ≤ x ∧ x < h'.next) t m.dg ∧ t.values = 2 ^ k ∧ h.next + 2 ^ k < h'.next := by
  obtain ⟨s1, s2⟩ := bombMessage_spec k
  refine ⟨bombMessage k, s1, fun h => ?_⟩
  have e := s2 (by omega)
  rcases deserialize_spec (fullFB k) with ⟨hb, _⟩ | ⟨nb, u, hu, hs⟩
  · exact absurd hb (full_sound k)
  cases Means.unique (full_means k) hu
  obtain ⟨p, hp, e2, hext, hrp, _⟩ := hs h
  obtain ⟨c, h3, e3, hfr, hrc⟩ := C01_copyCtor_faithful (Rep.mono (fun x hx => hx.2) (fun _ _ => rfl) _ _ hrp)
  have ho := full_objects k _ _ _ _ e2
  have hmem := Rep.mem hrc
  refine ⟨⟨[], [], c⟩, h3, full k, ?_, ?_, full_values k, by omega⟩
  · simp only [deserialize, e, Msg.deserialize, Msg.ctor, M.bind_run, e2, e3, M.pure_run]
  · exact Rep.mono (fun x hx => ⟨Nat.le_trans hext.1 hx.1, hx.2⟩) (fun _ _ => rfl) _ _ hrc

/-! ## Cases that meet the hypotheses -/

namespace Ex
/-- A message holding a list of a dictionary and an empty datagram. -/
def msg : Msg := ⟨bs "a/b", bs "t", 2⟩
theorem msg_rep : Rep LP.Ex.shared (fun x => x < LP.Ex.shared.next) LP.Ex.sharedTree msg.dg := LP.Ex.shared_rep
theorem msg_size : (match serialize msg LP.Ex.shared with | .ok b _ => b.length | _ => 2 ^ 31) < 1000 := by decide +kernel
end Ex

-- the bytes of a message holding the number 7
example : write Link.Ex.table = [16, 0, 0, 0, 0, 0, 10, 0, 18, 0, 4, 0, 8, 0, 12, 0, 10, 0, 0, 0, 80, 0, 0, 0, 68, 0, 0, 0, 28, 0, 0, 0, 0, 0, 22, 0, 24, 0, 6, 0, 7, 0, 0,
    0, 8, 0, 0, 0, 0, 0, 12, 0, 16, 0, 20, 0, 22, 0, 0, 0, 0, 0, 1, 1, 7, 0, 0, 0, 20, 0, 0, 0, 12, 0, 0, 0, 4, 0, 0, 0, 0, 0, 0, 0, 0, 0, 0, 0,
    0, 0, 0, 0, 1, 0, 0, 0, 116, 0, 0, 0, 1, 0, 0, 0, 97, 0, 0, 0] := by decide +kernel
-- this message goes through the bytes, also with garbage behind them
example : ∃ b, serialize Ex.msg LP.Ex.shared = .ok b LP.Ex.shared ∧ ∃ m2 h3, deserialize (b ++ [1, 2, 3]) LP.Ex.lossyHeap = .ok m2 h3 ∧
    m2.sender = bs "a/b" ∧ m2.topic = bs "t" ∧ Rep h3 (fun x => 4 ≤ x ∧ x < h3.next) LP.Ex.sharedTree m2.dg := by
  obtain ⟨b, e, _, hr⟩ := C129_round_trip Ex.msg_rep
  have hs := Ex.msg_size
  rw [e] at hs
  simp only at hs
  obtain ⟨m2, h3, e2, a1, a2, _, a3⟩ := hr (by omega) [1, 2, 3] LP.Ex.lossyHeap
  exact ⟨b, e, m2, h3, e2, a1, a2, a3⟩
-- and from one link to another, in two parts
example : ∃ b, Link.sendZmqMessage codec true Ex.msg LP.Ex.shared = .ok [bs "A", b] LP.Ex.shared ∧ ∃ s',
    Link.receiveMessage codec true (Link.parts [bs "A", b.take 5, b.drop 5]) ⟨[], [], 0⟩ ⟨⟨1, fun _ => Node.empty⟩, Link.Ex.blank.mem⟩ =
      .ok (true, ⟨bs "a/b", bs "t", 0⟩, []) s' := by
  obtain ⟨b, e, hr⟩ := C129_arrives Ex.msg_rep (by decide +kernel)
  obtain ⟨s', e2, _⟩ := hr (bs "A") [b.take 5, b.drop 5] (by simp) [] ⟨[], [], 0⟩ ⟨⟨1, fun _ => Node.empty⟩, Link.Ex.blank.mem⟩ (by decide)
  rw [List.append_nil] at e2
  exact ⟨b, e, s', e2⟩
-- and the hypothesis of `C129_link` is met
example : ∃ b, Link.sendZmqMessage codec true Ex.msg LP.Ex.shared = .ok [bs "A", b] LP.Ex.shared ∧ b.length < 2 ^ 31 := by
  obtain ⟨b, e, _⟩ := C129_link Ex.msg_rep
  refine ⟨b, e, ?_⟩
  have : (match Link.sendZmqMessage codec true Ex.msg LP.Ex.shared with | .ok [_, b] _ => b.length | _ => 2 ^ 31) < 1000 := by decide +kernel
  rw [e] at this
  simp only at this
  omega
-- the number of bytes of this message lies between the bounds
example : Tree.letters LP.Ex.sharedTree + 4 < 300 ∧ (match serialize Ex.msg LP.Ex.shared with | .ok b _ => b.length | _ => 0) > 300 ∧
    50 + 4 + Tree.letters LP.Ex.sharedTree + 150 * Tree.parts LP.Ex.sharedTree < 1000 := by decide +kernel
-- arbitrary bytes: a readable message cut off in the middle is undefined, cut off in its last padding it is the same message
example : ∃ m h', deserialize (write Link.Ex.table) LP.Ex.shared = .ok m h' ∧ deserialize ((write Link.Ex.table).take 50) LP.Ex.shared = .ub ∧
    deserialize ((write Link.Ex.table).take 107) LP.Ex.shared = .ok m h' := by
  obtain ⟨w1, w2⟩ := write_read (s := bs "a") (p := bs "t") (Plain.int 7)
  have e1 : message (write Link.Ex.table) = .ok Link.Ex.table := w2 (by decide +kernel)
  have e2 : ∃ m h', deserialize (write Link.Ex.table) LP.Ex.shared = .ok m h' := by
    rcases C129_any_bytes (write Link.Ex.table) LP.Ex.shared with h | h
    · have : (match deserialize (write Link.Ex.table) LP.Ex.shared with | .ub => true | _ => false) = false := by decide +kernel
      rw [h] at this; cases this
    · exact h
  obtain ⟨m, h', e2⟩ := e2
  refine ⟨m, h', e2, ?_, ?_⟩
  · have : message ((write Link.Ex.table).take 50) = .outside := by
      have : (match message ((write Link.Ex.table).take 50) with | .outside => true | _ => false) = true := by decide +kernel
      split at this
      · assumption
      · cases this
    simp only [deserialize, this]; rfl
  · have e3 := e2
    rw [← List.take_append_drop 107 (write Link.Ex.table)] at e3
    rcases (C129_cut_off _ _ LP.Ex.shared).2 e3 with h | h
    · have : (match deserialize ((write Link.Ex.table).take 107) LP.Ex.shared with | .ub => true | _ => false) = false := by decide +kernel
      rw [h] at this; cases this
    · exact h
example : deserialize [4, 0, 0, 0, 0, 0, 0, 0, 0] LP.Ex.shared = .ub := C129_too_short _ _ (by decide)
example : deserialize ((write Link.Ex.table).set 3 255) LP.Ex.shared = .ub :=
  C129_one_bad_byte _ _ (by decide +kernel) (by decide +kernel)
-- the same message with its root one byte further on, a byte put in between: every access is inside, the first one is misaligned
example : deserialize (17 :: 0 :: 0 :: 0 :: 0 :: (write Link.Ex.table).drop 4) LP.Ex.shared = .ub :=
  C129_misaligned _ _ _ (by decide)
-- less than five thousand bytes for more than a million objects
example : ∃ b : Bytes, b.length < 5000 ∧ ∃ m h', deserialize b LP.Ex.shared = .ok m h' ∧ 1000000 < h'.next := by
  obtain ⟨b, h1, h2⟩ := C129_blow_up 20 (by decide)
  obtain ⟨m, h', _, e, _, _, hn⟩ := h2 LP.Ex.shared
  exact ⟨b, by omega, m, h', e, by omega⟩

end LP.Flat
