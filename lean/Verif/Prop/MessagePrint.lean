import Verif.Prop.Print
import Verif.Prop.Wire
import Verif.Prop.Link
/-! # C122: the printed form of messages (Message.h:40-45) -/
namespace LP
open Heap Tree

/-- A message prints as its sender, topic and the text of its content. -/
theorem C122_message_text {m : Msg} {h : Heap} {t : Tree} (hm : Rep h (fun x => x < h.next) t m.dg) (pd : Dbl → Str) (po : Nat → Nat → Str) :
    m.print pd po h = .ok ([91] ++ m.sender ++ [32, 116, 111, 32] ++ m.topic ++ [93, 58, 32] ++ text pd po t) h := by
  have h1 := print_rep pd po t (h.next + 1) m.dg (Nat.le_succ_of_le (Rep.depth_next hm)) hm
  have e1 : bs "[" = [91] := by decide +kernel
  have e2 : bs " to " = [32, 116, 111, 32] := by decide +kernel
  have e3 : bs "]: " = [93, 58, 32] := by decide +kernel
  simp only [Msg.print, M.bind_run, M.get, h1, e1, e2, e3]
  rfl

/-- Two messages with plain content, without blanks in the senders and closing brackets in the topics, that print alike have the same
sender, topic and content. -/
theorem C122_messages {m n : Msg} {h h' : Heap} {t u : Tree} (hm : Rep h (fun x => x < h.next) t m.dg) (hn : Rep h' (fun x => x < h'.next) u n.dg)
    (ht : Plain t) (hu : Plain u) (hs : (32 : UInt8) ∉ m.sender ∧ 32 ∉ n.sender) (hp : (93 : UInt8) ∉ m.topic ∧ 93 ∉ n.topic)
    (pd : Dbl → Str) (po : Nat → Nat → Str) (s : Str) (h1 : m.print pd po h = .ok s h) (h2 : n.print pd po h' = .ok s h') :
    m.sender = n.sender ∧ m.topic = n.topic ∧ t = u := by
  rw [C122_message_text hm] at h1
  rw [C122_message_text hn] at h2
  simp only [Res.ok.injEq, and_true] at h1 h2
  rw [← h2] at h1
  simp only [List.append_assoc, List.cons_append, List.nil_append, List.cons.injEq, true_and] at h1
  obtain ⟨e1, r1⟩ := span_unique (fun c => c ≠ 32) m.sender n.sender _ _ (fun c hc e => hs.1 (e ▸ hc)) (fun c hc e => hs.2 (e ▸ hc))
    (fun c hc hn => hn (by simpa using hc.symm)) (fun c hc hn => hn (by simpa using hc.symm)) h1
  simp only [List.cons.injEq, true_and] at r1
  obtain ⟨e2, r2⟩ := span_unique (fun c => c ≠ 93) m.topic n.topic _ _ (fun c hc e => hp.1 (e ▸ hc)) (fun c hc e => hp.2 (e ▸ hc))
    (fun c hc hn => hn (by simpa using hc.symm)) (fun c hc hn => hn (by simpa using hc.symm)) r1
  simp only [List.cons.injEq, true_and] at r2
  exact ⟨e1, e2, (text_inj t u [] [] ht hu (by intro c hc; cases hc) (by intro c hc; cases hc) (by simpa using r2)).1⟩

/-- With blanks in it, a sender can take over the beginning of the topic: different messages print alike. -/
theorem C122_messages_ambiguous {m n : Msg} {h h' : Heap} {t : Tree} (hm : Rep h (fun x => x < h.next) t m.dg)
    (hn : Rep h' (fun x => x < h'.next) t n.dg) (a b c : Str) (h1 : m.sender = a ++ bs " to " ++ b ∧ m.topic = c)
    (h2 : n.sender = a ∧ n.topic = b ++ bs " to " ++ c) (pd : Dbl → Str) (po : Nat → Nat → Str) :
    ∃ s, m.print pd po h = .ok s h ∧ n.print pd po h' = .ok s h' ∧ m.sender ≠ n.sender := by
  refine ⟨_, C122_message_text hm pd po, ?_, ?_⟩
  · rw [C122_message_text hn, h1.1, h1.2, h2.1, h2.2]
    simp [show bs " to " = [32, 116, 111, 32] from by decide +kernel]
  · rw [h1.1, h2.1]
    intro e
    have := congrArg List.length e
    simp [show bs " to " = [32, 116, 111, 32] from by decide +kernel] at this

-- a message with shared, nested content prints uniquely; a sender with blanks does not
example : (∀ pd po, ∃ s, (Msg.mk (bs "main/a") (bs "t") 2).print pd po LP.Ex.shared = .ok s LP.Ex.shared) ∧ Plain LP.Ex.sharedTree ∧
    (32 : UInt8) ∉ bs "main/a" ∧ (93 : UInt8) ∉ bs "t" :=
  ⟨fun pd po => ⟨_, C122_message_text (m := ⟨bs "main/a", bs "t", 2⟩) LP.Ex.shared_rep pd po⟩,
    by simp only [LP.Ex.sharedTree, Plain, PlainL, PlainD]; decide +kernel, by decide +kernel, by decide +kernel⟩
example (pd : Dbl → Str) (po : Nat → Nat → Str) : ∃ s, (Msg.mk (bs "a to b") (bs "c") 2).print pd po LP.Ex.shared = .ok s LP.Ex.shared ∧
    (Msg.mk (bs "a") (bs "b to c") 2).print pd po LP.Ex.shared = .ok s LP.Ex.shared ∧ bs "a to b" ≠ bs "a" :=
  C122_messages_ambiguous (m := ⟨bs "a to b", bs "c", 2⟩) (n := ⟨bs "a", bs "b to c", 2⟩) LP.Ex.shared_rep LP.Ex.shared_rep (bs "a") (bs "b") (bs "c")
    ⟨by decide +kernel, rfl⟩ ⟨rfl, by decide +kernel⟩ pd po

end LP
