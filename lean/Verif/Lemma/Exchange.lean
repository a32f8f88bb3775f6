import Verif.Lemma.Wire
/-! Serialising, receiving and importing at the level of client programs. -/
namespace LP
open Heap Tree

theorem Holds.wire {s : DState} {x : Nat} {t : Tree} (h : Holds s x t) :
    ∃ f, observeWire s x = some f ∧ ¬ Broken f ∧ Means f t.wire := by
  obtain ⟨a, ha, hr⟩ := h
  have hd := Rep.depth_next hr
  obtain ⟨f, h1, h2, h3⟩ := serialize_main t (s.heap.next + 1) a (by omega) hr
  exact ⟨f, by simp only [observeWire, ha, Datagram.serialize, M.bind_run, M.get_run, h1], h2, h3⟩

/-- Binding a variable to a newly built datagram: it holds the new document, the other variables keep theirs. -/
theorem Holds.adopt {s : DState} {x a : Nat} {h' : Heap} {t : Tree} (he : Ext s.heap h') (hr : Rep h' (Fresh s.heap h') t a) :
    Holds ⟨h', fun z => if z = x then some a else s.env z⟩ x t ∧
      ∀ z u, z ≠ x → Holds s z u → Holds ⟨h', fun z => if z = x then some a else s.env z⟩ z u := by
  refine ⟨⟨a, by simp, Rep.mono (fun z hz => hz.2) (fun _ _ => rfl) _ _ hr⟩, ?_⟩
  rintro z u hz ⟨b, hb, hu⟩
  exact ⟨b, by simp [hz, hb], Rep.carry hu he.1 (fun z hz _ => he.2 z hz)⟩

theorem receive_run (s : DState) (x : Nat) {f : FB} (hf : ¬ Broken f) : ∃ t s', Means f t ∧ Cmd.run (.receive x f) s = .ok () s' ∧ Holds s' x t ∧
    ∀ z u, z ≠ x → Holds s z u → Holds s' z u := by
  rcases deserialize_spec f with ⟨h, _⟩ | ⟨_, t, ht, hb⟩
  · exact absurd h hf
  · obtain ⟨a, h', h1, h2, h3, _⟩ := hb s.heap
    refine ⟨t, _, ht, ?_, Holds.adopt h2 h3⟩
    simp only [Cmd.run, Cmd.bindVar, h1]

theorem json_run (s : DState) (x : Nat) (tok : Str → Option Json) (text : Str) : ∃ t s',
    (match tok text with | some j => JsonMeans j t | none => t = .empty) ∧ Cmd.run (.json x tok text) s = .ok () s' ∧ Holds s' x t ∧
    ∀ z u, z ≠ x → Holds s z u → Holds s' z u := by
  obtain ⟨t, ht, hb⟩ := json_spec tok text
  obtain ⟨a, h', h1, h2, h3, _⟩ := hb s.heap
  refine ⟨t, _, ht, ?_, Holds.adopt h2 h3⟩
  simp only [Cmd.run, Cmd.bindVar, h1]

theorem Reachable.step {s s' : DState} (hs : Reachable s) {c : Cmd} (h : c.run s = .ok () s') : Reachable s' := by
  obtain ⟨prog, hr⟩ := hs
  refine ⟨prog ++ [c], ?_⟩
  have : ∀ (p : List Cmd) (s0 : DState), Cmd.runAll p s0 = some s → Cmd.runAll (p ++ [c]) s0 = some s' := by
    intro p
    induction p with
    | nil => intro s0 h0; simp only [Cmd.runAll, Option.some.injEq] at h0; subst h0; simp only [List.nil_append, Cmd.runAll, h]
    | cons d p ih =>
      intro s0 h0
      simp only [Cmd.runAll, List.cons_append] at h0 ⊢
      split at h0
      · exact ih _ h0
      · exact ih _ h0
      · cases h0
      · cases h0
  exact this prog _ hr

end LP
