import Verif.Prop.ActionWait
import Verif.Lemma.OpenRequests
/-!
# C140: what a consumer remembers
-/
namespace LP.Action
open LP.Bus (Delivery BMsg)

/-- With distinct ids and callbacks that do not throw, whenever no request callback of it is running: `mOpenRequests` of a
consumer has the requests without a response, each under its id with its callback, and nothing else. -/
theorem C140_open_exactly (σ : St) (h : Reachable σ) (hd : Distinct σ) (c : Nat) (x : Cons) (hx : σ.cons[c]? = some x)
    (ht : ∀ id, (c, id) ∉ σ.threw) (hi : ∀ id, stageOf c id σ.cur = none) (id : Str) (cb : Cb) :
    x.opened.find id = some cb ↔ ∃ a ∈ unanswered c x.sub σ, a.id = id ∧ a.cb = cb := by
  have key : ∀ a ∈ σ.asked, a.cons = c →
      (responses x.sub a.id (σ.bus.log.drop a.seen) = [] ∧ x.opened.find a.id = some a.cb) ∨
      (responses x.sub a.id (σ.bus.log.drop a.seen) ≠ [] ∧ x.opened.find a.id = none) := by
    intro a ha e
    obtain ⟨y, hy, g⟩ := h.tracks hd a ha (by rw [e]; exact ht a.id)
    rw [e, hx] at hy; cases hy
    rcases g with ⟨g1, _, g2⟩ | ⟨d, rest, g1, _, ⟨st, g2, _⟩ | ⟨_, g2⟩⟩
    · exact .inl ⟨g1, g2⟩
    · have := hi a.id
      rw [g2, e] at this
      simp [stageOf] at this
    · exact .inr ⟨by rw [g1]; simp, g2⟩
  constructor
  · intro hf
    obtain ⟨a, ha, e1, e2, e3⟩ := h.hist.opened c x id cb hx hf
    rcases key a ha e1 with ⟨g1, g2⟩ | ⟨_, g2⟩
    · exact ⟨a, List.mem_filter.2 ⟨ha, by simp [e1, g1]⟩, e2, e3⟩
    · rw [e2, hf] at g2; cases g2
  · rintro ⟨a, ha, rfl, rfl⟩
    obtain ⟨ha, hc⟩ := List.mem_filter.1 ha
    simp only [Bool.and_eq_true, beq_iff_eq, List.isEmpty_iff] at hc
    rcases key a ha hc.1 with ⟨_, g2⟩ | ⟨g1, _⟩
    · exact g2
    · exact absurd hc.2 g1

/-- In every state, whatever callbacks throw, and also while they run: a request with a distinct id is in the table exactly as
long as no call of its callback has returned. -/
theorem C140_until_return (σ : St) (h : Reachable σ) (hd : Distinct σ) (c : Nat) (x : Cons) (hx : σ.cons[c]? = some x) (id : Str) (cb : Cb) :
    x.opened.find id = some cb ↔ ∃ a ∈ unreturned c σ, a.id = id ∧ a.cb = cb := by
  constructor
  · intro hf
    obtain ⟨a, ha, rfl, rfl, rfl⟩ := h.hist.opened c x id cb hx hf
    obtain ⟨y, hy, ⟨g, _⟩ | ⟨_, _, g⟩⟩ := h.counted hd a ha
    · exact ⟨a, List.mem_filter.2 ⟨ha, by simp [g]⟩, rfl, rfl⟩
    · rw [hx] at hy; cases hy
      rw [hf] at g; cases g
  · rintro ⟨a, ha, rfl, rfl⟩
    obtain ⟨hm, hc⟩ := List.mem_filter.1 ha
    simp only [Bool.and_eq_true, beq_iff_eq] at hc
    obtain ⟨rfl, hc⟩ := hc
    obtain ⟨y, hy, ⟨_, g⟩ | ⟨g, _⟩⟩ := h.counted hd a hm
    · rw [hx] at hy; cases hy; exact g
    · omega

/-- So it has as many entries as there are such requests: those that timed out, or that nobody provides, are never
forgotten. -/
theorem C140_size (σ : St) (h : Reachable σ) (hd : Distinct σ) (c : Nat) (x : Cons) (hx : σ.cons[c]? = some x) :
    x.opened.length = (unreturned c σ).length := by
  have hs := (h.own.cons c x hx).sorted
  have n1 : (x.opened.map Prod.fst).Nodup := Dict.nodup_keys hs
  have n2 : ((unreturned c σ).map (·.id)).Nodup := by
    have hd' : ((unreturned c σ).map (fun a => (a.cons, a.id))).Nodup := hd.sublist (List.filter_sublist.map _)
    refine List.pairwise_map.2 ((List.pairwise_map.1 hd').imp_of_mem ?_)
    intro a b ha hb e e'
    have ca := (List.mem_filter.1 ha).2
    have cb := (List.mem_filter.1 hb).2
    simp only [Bool.and_eq_true, beq_iff_eq] at ca cb
    exact e (by rw [ca.1, cb.1, e'])
  have hp : (x.opened.map Prod.fst).Perm ((unreturned c σ).map (·.id)) := by
    rw [List.perm_ext_iff_of_nodup n1 n2]
    intro id
    constructor
    · intro hm
      obtain ⟨⟨k, v⟩, hk, rfl⟩ := List.mem_map.1 hm
      obtain ⟨a, ha, e, _⟩ := (C140_until_return σ h hd c x hx k v).1 (Dict.mem_find hs hk)
      exact List.mem_map.2 ⟨a, ha, e⟩
    · intro hm
      obtain ⟨a, ha, e⟩ := List.mem_map.1 hm
      have := (C140_until_return σ h hd c x hx id a.cb).2 ⟨a, ha, e, rfl⟩
      exact List.mem_map.2 ⟨_, Dict.find_some_mem this, rfl⟩
  simpa using hp.length_eq

/-- Three requests, one of them blocking; the second is answered, the blocking one times out: two entries are left. -/
example : ∃ σ x, Reachable σ ∧ Distinct σ ∧ σ.cons[0]? = some x ∧ (∀ id, (0, id) ∉ σ.threw) ∧ (∀ id, stageOf 0 id σ.cur = none) ∧
    (unanswered 0 x.sub σ).map (·.id) = [bs "1", bs "3"] ∧ x.opened.length = 2 ∧ σ.asked.length = 3 ∧
    plainCalls σ.frames = [⟨.done, bs "3", some none⟩] := by
  obtain ⟨σ, h, e⟩ := play_obs (bs "r")
    (setup ++ asking (bs "1") 7 ++ asking (bs "2") 7 ++ answering (bs "2") 8 ++ calling (bs "3") 7 ++ [.timeout 0] ++ thread 40)
    (fun σ => (σ.asked.map (fun a => (a.cons, a.id)), σ.threw.isEmpty && isIdle σ.cur, σ.cons.map (fun x => (x.opened.length,
      (unanswered 0 x.sub σ).map (·.id))), plainCalls σ.frames))
    ([(0, bs "1"), (0, bs "2"), (0, bs "3")], true, [(2, [bs "1", bs "3"])], [⟨.done, bs "3", some none⟩]) (by set_option synthInstance.maxSize 1000 in decide +kernel)
  simp only [Prod.mk.injEq, Bool.and_eq_true, List.isEmpty_iff] at e
  obtain ⟨e1, ⟨e2, e3⟩, e4, e5⟩ := e
  cases hc : σ.cons with
  | nil => rw [hc] at e4; cases e4
  | cons x xs =>
    rw [hc] at e4
    simp only [List.map_cons, List.cons.injEq, Prod.mk.injEq] at e4
    refine ⟨σ, x, h, ?_, by rw [hc]; rfl, by rw [e2]; simp, ?_, e4.1.2, e4.1.1, ?_, e5⟩
    · unfold Distinct; rw [e1]; decide
    · intro id
      cases hq : σ.cur <;> rw [hq] at e3 <;> first | rfl | cases e3
    · have := congrArg List.length e1; simpa using this

/-- Two requests; the callback of the second throws: both are kept. -/
example : ∃ σ, Reachable σ ∧ Distinct σ ∧ σ.threw = [(0, bs "2")] ∧ (unreturned 0 σ).map (·.id) = [bs "1", bs "2"] ∧
    σ.cons.map (fun x => x.opened.length) = [2] := by
  obtain ⟨σ, h, e⟩ := play_obs (bs "r")
    (setup ++ asking (bs "1") 7 ++ asking (bs "2") 7 ++ answering (bs "2") 8 ++ thread 25 ++ [.run .throwing])
    (fun σ => (σ.asked.map (fun a => (a.cons, a.id)), σ.threw, (unreturned 0 σ).map (·.id), σ.cons.map (fun x => x.opened.length)))
    ([(0, bs "1"), (0, bs "2")], [(0, bs "2")], [bs "1", bs "2"], [2]) (by set_option synthInstance.maxSize 1000 in decide +kernel)
  simp only [Prod.mk.injEq] at e
  refine ⟨σ, h, ?_, e.2.1, e.2.2.1, e.2.2.2⟩
  unfold Distinct; rw [e.1]; decide

end LP.Action
