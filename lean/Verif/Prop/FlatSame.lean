import Verif.Prop.Flat
import Verif.Lemma.FlatSame
/-! # C129: which messages have the same bytes -/
namespace LP.Flat
open Heap Tree

/-- The bytes of a message depend on nothing but its sender, its topic and its document (not on how the document lies in
memory or what it shares), where -0.0 counts as 0.0 and a value of another type as an empty datagram; and, below 2 GiB, messages
that differ in anything else differ in their bytes. -/
theorem C129_same_bytes {h1 h2 : Heap} {m1 m2 : Msg} {t1 t2 : Tree} (r1 : Rep h1 (fun x => x < h1.next) t1 m1.dg)
    (r2 : Rep h2 (fun x => x < h2.next) t2 m2.dg) :
    ∃ b1 b2, serialize m1 h1 = .ok b1 h1 ∧ serialize m2 h2 = .ok b2 h2 ∧
      (m1.sender = m2.sender ∧ m1.topic = m2.topic ∧ t1.sent = t2.sent → b1 = b2) ∧
      (b1.length < 2 ^ 31 → b1 = b2 → m1.sender = m2.sender ∧ m1.topic = m2.topic ∧ t1.sent = t2.sent) := by
  have run : ∀ {h : Heap} {m : Msg} {t : Tree}, Rep h (fun x => x < h.next) t m.dg →
      serialize m h = .ok (write ⟨some m.sender, some m.topic, some (tables t)⟩) h ∧ Plain (tables t) := by
    intro h m t r
    have hd := Rep.depth_next r
    have e := serialize_tables t (h.next + 1) m.dg (by omega) r
    exact ⟨by simp [serialize, Msg.serialize, Datagram.serialize, e], serialize_plain _ _ _ _ _ e⟩
  obtain ⟨e1, p1⟩ := run r1
  obtain ⟨e2, p2⟩ := run r2
  refine ⟨_, _, e1, e2, ?_, ?_⟩
  · rintro ⟨a, b, c⟩
    rw [a, b, (tables_iff t1 t2).mpr c]
  · intro hl he
    have w1 := (write_read (s := m1.sender) (p := m1.topic) p1).2 hl
    have w2 := (write_read (s := m2.sender) (p := m2.topic) p2).2 (he ▸ hl)
    rw [he, w2] at w1
    simp only [Rd.ok.injEq, FBM.mk.injEq, Option.some.injEq] at w1
    exact ⟨w1.1.symm, w1.2.1.symm, (tables_iff t1 t2).mp w1.2.2.symm⟩

/-- Reading a message and writing it again (as a host between two links does, sender and topic aside) yields the same bytes
unless the document contains an empty list or dictionary; and from then on the bytes never change any more. -/
theorem C129_rewritten {h : Heap} {m : Msg} {t : Tree} (r : Rep h (fun x => x < h.next) t m.dg) :
    ∃ b1, serialize m h = .ok b1 h ∧ (b1.length < 2 ^ 31 → ∀ h2, ∃ m2 h3 b2, deserialize b1 h2 = .ok m2 h3 ∧ serialize m2 h3 = .ok b2 h3 ∧
      (b2 = b1 ↔ ¬ HasEmptyContainer t) ∧
      (b2.length < 2 ^ 31 → ∀ h4, ∃ m3 h5, deserialize b2 h4 = .ok m3 h5 ∧ serialize m3 h5 = .ok b2 h5)) := by
  obtain ⟨b1, e1, _, k1⟩ := C129_round_trip r
  refine ⟨b1, e1, fun l1 h2 => ?_⟩
  obtain ⟨m2, h3, d2, s2, p2, _, r2⟩ := k1 l1 [] h2
  rw [List.append_nil] at d2
  have r2' : Rep h3 (fun x => x < h3.next) t.wire m2.dg := Rep.mono (fun x hx => hx.2) (fun _ _ => rfl) _ _ r2
  obtain ⟨b2, e2, _, k2⟩ := C129_round_trip r2'
  refine ⟨m2, h3, b2, d2, e2, ?_, fun l2 h4 => ?_⟩
  · obtain ⟨c1, c2, f1, f2, g1, g2⟩ := C129_same_bytes r r2'
    rw [e1] at f1; rw [e2] at f2
    simp only [Res.ok.injEq, and_true] at f1 f2
    subst f1; subst f2
    rw [sent_wire] at g1 g2
    rw [← sent_eq_wire]
    exact ⟨fun e => (g2 l1 e.symm).2.2, fun e => (g1 ⟨s2.symm, p2.symm, e⟩).symm⟩
  · obtain ⟨m3, h5, d3, s3, p3, _, r3⟩ := k2 l2 [] h4
    rw [List.append_nil] at d3
    have r3' : Rep h5 (fun x => x < h5.next) t.wire.wire m3.dg := Rep.mono (fun x hx => hx.2) (fun _ _ => rfl) _ _ r3
    obtain ⟨c2, c3, f2, f3, g1, _⟩ := C129_same_bytes r2' r3'
    rw [e2] at f2
    simp only [Res.ok.injEq, and_true] at f2
    subst f2
    rw [← g1 ⟨s3.symm, p3.symm, by rw [wire_wire]⟩] at f3
    exact ⟨m3, h5, d3, f3⟩

/-! ## Cases that meet the hypotheses -/

namespace Ex
/-- One datagram, holding a double. -/
def one (d : Dbl) : Heap := ⟨1, fun _ => ⟨.value, [], [], some (.dbl d)⟩⟩
theorem one_rep (d : Dbl) : Rep (one d) (fun x => x < (one d).next) (.value (.dbl d)) 0 := ⟨Nat.zero_lt_one, rfl⟩
end Ex

-- -0.0 and 0.0 cannot be told apart in the bytes, 0.0 and 1.0 can
example : ∃ b, serialize ⟨bs "a", bs "t", 0⟩ (Ex.one 0x8000000000000000#64) = .ok b (Ex.one 0x8000000000000000#64) ∧
    serialize ⟨bs "a", bs "t", 0⟩ (Ex.one 0) = .ok b (Ex.one 0) := by
  obtain ⟨b1, b2, e1, e2, h, _⟩ := C129_same_bytes (m1 := ⟨bs "a", bs "t", 0⟩) (m2 := ⟨bs "a", bs "t", 0⟩)
    (Ex.one_rep 0x8000000000000000#64) (Ex.one_rep 0)
  cases h ⟨rfl, rfl, by simp only [sent]; rw [← wireDbl_eq, ← wireDbl_eq]; rfl⟩
  exact ⟨b1, e1, e2⟩
example : ∃ b1 b2, serialize ⟨bs "a", bs "t", 0⟩ (Ex.one 0) = .ok b1 (Ex.one 0) ∧
    serialize ⟨bs "a", bs "t", 0⟩ (Ex.one 0x3ff0000000000000#64) = .ok b2 (Ex.one 0x3ff0000000000000#64) ∧ b1 ≠ b2 := by
  obtain ⟨b1, b2, e1, e2, _, h⟩ := C129_same_bytes (m1 := ⟨bs "a", bs "t", 0⟩) (m2 := ⟨bs "a", bs "t", 0⟩)
    (Ex.one_rep 0) (Ex.one_rep 0x3ff0000000000000#64)
  refine ⟨b1, b2, e1, e2, fun he => ?_⟩
  have hl : (match serialize ⟨bs "a", bs "t", 0⟩ (Ex.one 0) with | .ok b _ => b.length | _ => 2 ^ 31) < 1000 := by decide +kernel
  rw [e1] at hl
  simp only at hl
  have := (h (by omega) he).2.2
  simp only [sent] at this
  rw [← wireDbl_eq, ← wireDbl_eq] at this
  simp only [Tree.value.injEq, Val.dbl.injEq] at this
  revert this
  decide +kernel

-- a list of an empty list comes back as a list of an empty datagram, in other bytes; a list of a
-- dictionary and an empty datagram in the same
namespace Ex
/-- A list whose element is an empty list. -/
def hollow : Heap := ⟨2, fun a => if a = 0 then ⟨.list, [], [some 1], none⟩ else ⟨.list, [], [], none⟩⟩
theorem hollow_rep : Rep hollow (fun x => x < hollow.next) (.list [.list []]) 0 :=
  ⟨by decide, [some 1], rfl, 1, [], rfl, ⟨by decide, [], rfl, rfl⟩, rfl⟩
end Ex
example : ∃ b1 m2 h3 b2, serialize ⟨bs "a", bs "t", 0⟩ Ex.hollow = .ok b1 Ex.hollow ∧ deserialize b1 LP.Ex.shared = .ok m2 h3 ∧
    serialize m2 h3 = .ok b2 h3 ∧ b2 ≠ b1 := by
  obtain ⟨b1, e1, k⟩ := C129_rewritten (m := ⟨bs "a", bs "t", 0⟩) Ex.hollow_rep
  have hl : (match serialize ⟨bs "a", bs "t", 0⟩ Ex.hollow with | .ok b _ => b.length | _ => 2 ^ 31) < 1000 := by decide +kernel
  rw [e1] at hl
  simp only at hl
  obtain ⟨m2, h3, b2, d, e2, hi, _⟩ := k (by omega) LP.Ex.shared
  exact ⟨b1, m2, h3, b2, e1, d, e2, fun e => hi.mp e (.list (List.mem_singleton.mpr rfl) .emptyList)⟩
example : ∃ b1 m2 h3, serialize Ex.msg LP.Ex.shared = .ok b1 LP.Ex.shared ∧ deserialize b1 Ex.hollow = .ok m2 h3 ∧
    serialize m2 h3 = .ok b1 h3 := by
  obtain ⟨b1, e1, k⟩ := C129_rewritten Ex.msg_rep
  have hl := Ex.msg_size
  rw [e1] at hl
  simp only at hl
  obtain ⟨m2, h3, b2, d, e2, hi, _⟩ := k (by omega) Ex.hollow
  have hh : ¬ HasEmptyContainer LP.Ex.sharedTree := (sent_eq_wire _).mp (by simp [LP.Ex.sharedTree, sent, sentL, sentD, wire, wireL, wireD])
  cases hi.mpr hh
  exact ⟨_, m2, h3, e1, d, e2⟩

end LP.Flat
