import Verif.Model.Message
import Verif.Prop.Wire
/-! # C17, C24, C25: messages -/
namespace LP
open Heap Tree

/-! ## C17 -/

/-- Serialising a message and reading the buffer in any process gives a message with the same sender and topic whose
datagram is new and is the round trip of the original datagram. Nothing existing is touched on either side. -/
theorem C17_message_round_trip {h : Heap} {m : Msg} {t : Tree} (hm : Rep h (fun x => x < h.next) t m.dg) (h2 : Heap) :
    ∃ f m2 h3, m.serialize h = .ok f h ∧ Msg.deserialize f h2 = .ok m2 h3 ∧ m2.sender = m.sender ∧ m2.topic = m.topic ∧
      (∀ x, x < h2.next → h3.node x = h2.node x) ∧ Rep h3 (fun x => h2.next ≤ x ∧ x < h3.next) t.wire m2.dg := by
  have hd := Rep.depth_next hm
  obtain ⟨f, e1, nb, hf⟩ := serialize_main t (h.next + 1) m.dg (by omega) hm
  rcases deserialize_spec f with ⟨hb, _⟩ | ⟨_, u, hu, hs⟩
  · exact absurd hb nb
  cases Means.unique hf hu
  obtain ⟨p, hp, e2, hext, hrp, _⟩ := hs h2
  obtain ⟨c, h3, e3, hfr, hrc⟩ := C01_copyCtor_faithful (Rep.mono (fun x hx => hx.2) (fun _ _ => rfl) _ _ hrp)
  refine ⟨⟨some m.sender, some m.topic, some f⟩, ⟨m.sender, m.topic, c⟩, h3, ?_, ?_, rfl, rfl, ?_, ?_⟩
  · simp only [Msg.serialize, Datagram.serialize, M.bind_run, M.get_run, e1, M.pure_run]
  · simp only [Msg.deserialize, Msg.ctor, M.bind_run, e2, e3, M.pure_run]
  · intro x hx; rw [hfr x (Nat.lt_of_lt_of_le hx hext.1), hext.2 x hx]
  · exact Rep.mono (fun x hx => ⟨Nat.le_trans hext.1 hx.1, hx.2⟩) (fun _ _ => rfl) _ _ hrc

/-- Two messages compare equal exactly when sender, topic and datagram do. -/
theorem C17_message_equality {h : Heap} {m r : Msg} {t u : Tree} (hm : Rep h (fun x => x < h.next) t m.dg)
    (hr : Rep h (fun x => x < h.next) u r.dg) :
    ∃ b, m.eq r h = .ok b h ∧ (b = true ↔ m.sender = r.sender ∧ m.topic = r.topic ∧ Same t u) := by
  unfold Msg.eq
  by_cases hc : r.sender = m.sender ∧ r.topic = m.topic
  · have hd := Rep.depth_next hr
    obtain ⟨b, hb, hbi⟩ := eq_rep (h.next + 1) t u _ _ m.dg r.dg (Or.inr (by omega)) hm hr
    refine ⟨b, by rw [if_pos hc]; exact hb, ?_⟩
    rw [hbi]
    exact ⟨fun h => ⟨hc.1.symm, hc.2.symm, h⟩, fun h => h.2.2⟩
  · refine ⟨false, by rw [if_neg hc]; rfl, ?_⟩
    simp only [Bool.false_eq_true, false_iff]
    rintro ⟨h1, h2, _⟩
    exact hc ⟨h1.symm, h2.symm⟩

/-- A message equals its round trip exactly when its datagram does: when the datagram has no NaN, no value of an
unsupported type and no empty container. -/
theorem C17_equal_iff {h : Heap} {m : Msg} {t : Tree} (hm : Rep h (fun x => x < h.next) t m.dg) :
    ∃ f m2 h3 b, m.serialize h = .ok f h ∧ Msg.deserialize f h = .ok m2 h3 ∧ m.eq m2 h3 = .ok b h3 ∧ (b = true ↔ ¬ Lossy t) := by
  obtain ⟨f, m2, h3, e1, e2, e3, e4, hfr, hrep⟩ := C17_message_round_trip hm h
  have hle : h.next ≤ h3.next := Nat.le_trans (Rep.mem hrep).1 (Nat.le_of_lt (Rep.mem hrep).2)
  have hm3 : Rep h3 (fun x => x < h3.next) t m.dg :=
    Rep.mono (fun x hx => Nat.lt_of_lt_of_le hx hle) (fun x hx => hfr x hx) _ _ hm
  obtain ⟨b, hb, hbi⟩ := C17_message_equality hm3 (Rep.mono (fun x hx => hx.2) (fun _ _ => rfl) _ _ hrep)
  refine ⟨f, m2, h3, b, e1, e2, hb, ?_⟩
  rw [hbi, e3, e4, ← (Rep.canon _ _ hm).same_wire]
  simp

/-- A buffer that lacks the sender, the topic or the datagram, or whose datagram lacks a needed field, is undefined
behaviour (nothing verifies received buffers); every other buffer is read. -/
theorem C17_unverified_buffers (f : FBM) (h : Heap) :
    (Msg.deserialize f h = .ub ↔ f.sender = none ∨ f.topic = none ∨ f.datagram = none ∨ ∃ d, f.datagram = some d ∧ Broken d) ∧
    (Msg.deserialize f h = .ub ∨ ∃ m h', Msg.deserialize f h = .ok m h') := by
  obtain ⟨s, t, d⟩ := f
  cases s with
  | none => exact ⟨by simp [Msg.deserialize], .inl rfl⟩
  | some s =>
  cases t with
  | none => exact ⟨by simp [Msg.deserialize], .inl rfl⟩
  | some t =>
  cases d with
  | none => exact ⟨by simp [Msg.deserialize], .inl rfl⟩
  | some d =>
    rcases deserialize_spec d with ⟨hb, hu⟩ | ⟨nb, u, hu, hs⟩
    · have : Msg.deserialize ⟨some s, some t, some d⟩ h = .ub := by simp only [Msg.deserialize, M.bind_run, hu]
      exact ⟨by simp [this, hb], .inl this⟩
    · obtain ⟨p, hp, e2, hext, hrp, _⟩ := hs h
      obtain ⟨c, h3, e3, _⟩ := C01_copyCtor_faithful (Rep.mono (fun x hx => hx.2) (fun _ _ => rfl) _ _ hrp)
      have : Msg.deserialize ⟨some s, some t, some d⟩ h = .ok ⟨s, t, c⟩ h3 := by
        simp only [Msg.deserialize, Msg.ctor, M.bind_run, e2, e3, M.pure_run]
      exact ⟨by simp [this, nb], .inr ⟨_, _, this⟩⟩

/-- A message keeps a private copy: constructed from an lvalue, its datagram is new and shows what the argument showed;
the argument and everything else stay untouched. The same holds for copies of messages and for `GetDatagram`. -/
theorem C17_message_owns_copy {h : Heap} {d : Nat} {t : Tree} (hd : Rep h (fun x => x < h.next) t d) (s p : Str) :
    ∃ m h', Msg.make s p d h = .ok m h' ∧ m.sender = s ∧ m.topic = p ∧ (∀ x, x < h.next → h'.node x = h.node x) ∧
      Rep h' (fun x => h.next ≤ x ∧ x < h'.next) t m.dg ∧
      ∃ c m2 h'', m.getDatagram h' = .ok c h'' ∧ m.copy h' = .ok m2 h'' ∧ m2.sender = s ∧ m2.topic = p ∧ m2.dg = c ∧
        (∀ x, x < h'.next → h''.node x = h'.node x) ∧ Rep h'' (fun x => h'.next ≤ x ∧ x < h''.next) t c := by
  obtain ⟨a, h1, e1, f1, r1⟩ := C01_copyCtor_faithful hd
  have hle1 : h.next ≤ h1.next := Nat.le_trans (Rep.mem r1).1 (Nat.le_of_lt (Rep.mem r1).2)
  obtain ⟨b, h2, e2, f2, r2⟩ := C01_copyCtor_faithful (Rep.mono (fun x hx => hx.2) (fun _ _ => rfl) _ _ r1)
  obtain ⟨c, h3, e3, f3, r3⟩ := C01_copyCtor_faithful (Rep.mono (fun x hx => hx.2) (fun _ _ => rfl) _ _ r2)
  refine ⟨⟨s, p, b⟩, h2, ?_, rfl, rfl, ?_, ?_, c, ⟨s, p, c⟩, h3, e3, ?_, rfl, rfl, rfl, f3, r3⟩
  · simp only [Msg.make, Msg.ctor, M.bind_run, e1, e2, M.pure_run]
  · intro x hx; rw [f2 x (Nat.lt_of_lt_of_le hx hle1), f1 x hx]
  · exact Rep.mono (fun x hx => ⟨Nat.le_trans hle1 hx.1, hx.2⟩) (fun _ _ => rfl) _ _ r2
  · simp only [Msg.copy, M.bind_run, e3, M.pure_run]

/-! ## C24 -/

/-- The first component of a sender path, when it is terminated by a slash (specification only). -/
def HeadComponent (s n : Str) : Prop := ∃ rest, s = n ++ slash :: rest ∧ slash ∉ n

theorem take_eq_iff (s n : Str) : s.take (n.length + 1) = n ++ bs "/" ↔ ∃ rest, s = n ++ slash :: rest := by
  constructor
  · intro h
    refine ⟨s.drop (n.length + 1), ?_⟩
    have := List.take_append_drop (n.length + 1) s
    rw [h] at this
    rw [← this]; simp [bs, slash]
  · rintro ⟨rest, rfl⟩
    rw [List.take_append, List.take_of_length_le (by omega)]
    simp [bs, slash]

/-- `PrependSender(n)` makes the message one sent by `n`, and `RemoveSender(n)` undoes it. -/
theorem C24_push_pop (n : Str) (m : Msg) :
    (m.prependSender n).wasSentBySender n = true ∧ (m.prependSender n).removeSender n = m := by
  have h : ∃ rest, (m.prependSender n).sender = n ++ slash :: rest := ⟨m.sender, by simp [Msg.prependSender, bs, slash]⟩
  have ht := (take_eq_iff _ _).mpr h
  refine ⟨by simp only [Msg.wasSentBySender, ht, beq_self_eq_true], ?_⟩
  simp only [Msg.removeSender, ht, if_true]
  obtain ⟨s, t, d⟩ := m
  simp [Msg.prependSender, bs]

/-- For a name without a slash, being sent by it is having it as the first slash-terminated component. -/
theorem C24_sent_by_iff (n : Str) (hn : slash ∉ n) (m : Msg) : m.wasSentBySender n = true ↔ HeadComponent m.sender n := by
  simp only [Msg.wasSentBySender, beq_iff_eq, take_eq_iff, HeadComponent]
  exact ⟨fun ⟨r, h⟩ => ⟨r, h, hn⟩, fun ⟨r, h, _⟩ => ⟨r, h⟩⟩

/-- The first component is unique, so at most one slash-free name is the sender's head. -/
theorem C24_head_unique (n k : Str) (hn : slash ∉ n) (hk : slash ∉ k) (m : Msg) (h1 : m.wasSentBySender n = true) (h2 : m.wasSentBySender k = true) :
    n = k := by
  obtain ⟨r, h1, _⟩ := (C24_sent_by_iff n hn m).mp h1
  obtain ⟨r', h2, _⟩ := (C24_sent_by_iff k hk m).mp h2
  rw [h1] at h2
  have h3 : ∀ (n k r r' : Str), slash ∉ n → slash ∉ k → n ++ slash :: r = k ++ slash :: r' → n = k := by
    intro n
    induction n with
    | nil => intro k r r' _ hk h; cases k with
      | nil => rfl
      | cons c k => simp only [List.nil_append, List.cons_append, List.cons.injEq] at h; exact absurd h.1 (fun e => hk (by simp [← e]))
    | cons c n ih => intro k r r' hn hk h; cases k with
      | nil => simp only [List.nil_append, List.cons_append, List.cons.injEq] at h; exact absurd h.1 (fun e => hn (by simp [e]))
      | cons d k =>
        simp only [List.cons_append, List.cons.injEq] at h
        rw [h.1, ih k r r' (fun e => hn (by simp [e])) (fun e => hk (by simp [e])) h.2]
  exact h3 n k r r' hn hk h2

/-- Pushing any list of names and popping them in reverse order restores the message. -/
theorem C24_push_pop_all (ns : List Str) (m : Msg) :
    ns.foldl (fun m n => m.removeSender n) (ns.foldr (fun n m => m.prependSender n) m) = m := by
  induction ns with
  | nil => rfl
  | cons n ns ih => simp only [List.foldr_cons, List.foldl_cons, (C24_push_pop n _).2, ih]

/-! ## C25 -/

/-- `RemoveSender` removes exactly the prefix `n/` when it is there and changes nothing otherwise; topic and datagram
never change. -/
theorem C25_remove_exact (n : Str) (m : Msg) :
    (m.wasSentBySender n = true → m.sender = n ++ slash :: (m.removeSender n).sender) ∧
    (m.wasSentBySender n = false → (m.removeSender n).sender = m.sender) ∧
    (m.removeSender n).topic = m.topic ∧ (m.removeSender n).dg = m.dg := by
  unfold Msg.removeSender Msg.wasSentBySender
  refine ⟨?_, ?_, ?_, ?_⟩
  · intro h
    simp only [beq_iff_eq] at h
    obtain ⟨r, hr⟩ := (take_eq_iff _ _).mp h
    rw [if_pos h]
    simp [hr]
  · intro h
    simp only [beq_eq_false_iff_ne, ne_eq] at h
    rw [if_neg h]
  · split <;> rfl
  · split <;> rfl

/-- A sender without a slash, in particular one that is just the name, does not count as sent by anyone. -/
theorem C25_bare_name (n : Str) (m : Msg) (h : slash ∉ m.sender) : m.wasSentBySender n = false ∧ m.removeSender n = m := by
  have : ¬ m.sender.take (n.length + 1) = n ++ bs "/" := by
    rw [take_eq_iff]; rintro ⟨r, hr⟩; rw [hr] at h; simp at h
  exact ⟨by simp [Msg.wasSentBySender, this], by simp [Msg.removeSender, this]⟩

/-! ## Cases that meet the hypotheses -/
example : ∃ f m2 h3, (Msg.mk (bs "a/b") (bs "t") 2).serialize Ex.shared = .ok f Ex.shared ∧ Msg.deserialize f Ex.lossyHeap = .ok m2 h3 ∧
    m2.sender = bs "a/b" ∧ m2.topic = bs "t" ∧ Rep h3 (fun x => 4 ≤ x ∧ x < h3.next) Ex.sharedTree m2.dg := by
  obtain ⟨f, m2, h3, a, b, c, d, _, e⟩ := C17_message_round_trip (m := ⟨bs "a/b", bs "t", 2⟩) Ex.shared_rep Ex.lossyHeap
  exact ⟨f, m2, h3, a, b, c, d, e⟩
example : ∃ b, (Msg.mk (bs "a") (bs "t") 2).eq (Msg.mk (bs "a") (bs "t") 0) Ex.shared = .ok b Ex.shared := by
  have h0 : Rep Ex.shared (fun x => x < Ex.shared.next) (.dict [(bs "a", .value (.int 7)), (bs "b", .value (.int 7))]) 0 := by
    obtain ⟨_, _, h, a, _, h2, h3, _⟩ := Ex.shared_rep
    cases h; cases h2; exact h3
  obtain ⟨b, h, _⟩ := C17_message_equality (m := ⟨bs "a", bs "t", 2⟩) (r := ⟨bs "a", bs "t", 0⟩) Ex.shared_rep h0
  exact ⟨b, h⟩
example : ∃ f m2 h3, (Msg.mk (bs "a") (bs "t") 2).serialize Ex.shared = .ok f Ex.shared ∧ Msg.deserialize f Ex.shared = .ok m2 h3 ∧
    (Msg.mk (bs "a") (bs "t") 2).eq m2 h3 = .ok true h3 := by
  obtain ⟨f, m2, h3, b, h1, h2, h4, h5⟩ := C17_equal_iff (m := ⟨bs "a", bs "t", 2⟩) Ex.shared_rep
  rw [h5.mpr Ex.wired_not_lossy] at h4
  exact ⟨f, m2, h3, h1, h2, h4⟩
example : Msg.deserialize ⟨some (bs "a"), none, some Ex.odd⟩ Ex.shared = .ub := (C17_unverified_buffers _ _).1.mpr (.inr (.inl rfl))
example : ∃ m h', Msg.make (bs "s") (bs "t") 2 Ex.shared = .ok m h' ∧ Rep h' (fun x => 4 ≤ x ∧ x < h'.next) Ex.sharedTree m.dg := by
  obtain ⟨m, h', h1, _, _, _, h2, _⟩ := C17_message_owns_copy Ex.shared_rep (bs "s") (bs "t")
  exact ⟨m, h', h1, h2⟩
example : ((Msg.mk (bs "x/y") (bs "t") 0).prependSender (bs "lk")).sender = bs "lk/x/y" ∧
    ((Msg.mk (bs "x/y") (bs "t") 0).prependSender (bs "lk")).wasSentBySender (bs "lk") = true := ⟨by decide, (C24_push_pop _ _).1⟩
example : (Msg.mk (bs "x/y") (bs "t") 0).wasSentBySender (bs "x") = true := (C24_sent_by_iff _ (by decide) _).mpr ⟨bs "y", by decide, by decide⟩
example : ∀ k, slash ∉ k → (Msg.mk (bs "x/y") (bs "t") 0).wasSentBySender k = true → bs "x" = k :=
  fun k hk h => C24_head_unique (bs "x") k (by decide) hk ⟨bs "x/y", bs "t", 0⟩ (by decide) h
example : (Msg.mk (bs "xy/z") (bs "t") 0).wasSentBySender (bs "x") = false ∧ ((Msg.mk (bs "xy/z") (bs "t") 0).removeSender (bs "x")).sender = bs "xy/z" :=
  ⟨by decide, (C25_remove_exact (bs "x") ⟨bs "xy/z", bs "t", 0⟩).2.1 (by decide)⟩
example : (Msg.mk (bs "x") (bs "t") 0).wasSentBySender (bs "x") = false := (C25_bare_name _ _ (by decide)).1

end LP
