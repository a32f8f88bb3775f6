import Verif.Spec.Free
import Verif.Prop.Copy
import Verif.Lemma.Canon
/-! # C112: the storage of Datagrams -/
namespace LP
open Heap

theorem mem_children {n : Node Ptr} {p : Ptr} : p ∈ n.children ↔ (∃ k, (k, p) ∈ n.dict) ∨ p ∈ n.list := by
  unfold Node.children
  rw [List.mem_append, List.mem_map]
  constructor
  · rintro (⟨⟨k, q⟩, h, rfl⟩ | h)
    · exact .inl ⟨k, h⟩
    · exact .inr h
  · rintro (⟨k, h⟩ | h)
    · exact .inl ⟨(k, p), h, rfl⟩
    · exact .inr h

theorem children_kids {h : Heap} (w : WF h) {a : Nat} (ha : a < h.next) {p : Ptr} (hp : p ∈ (h.node a).children) : p ∈ (h.node a).kids := by
  unfold Node.children at hp
  unfold Node.kids
  rcases w.ok a ha with e | ⟨v, e⟩ | ⟨ps, e⟩ | ⟨d, e, _⟩ <;> rw [e] at hp ⊢
  · cases hp
  · cases hp
  · simpa using hp
  · simpa using hp

theorem held_reach {s : DState} (inv : Inv s) {z : Nat} : Held s z ↔ ∃ x a, s.env x = some a ∧ Reach s.heap a z := by
  constructor
  · rintro ⟨x, a, hx, hd⟩
    refine ⟨x, a, hx, ?_⟩
    induction hd with
    | refl => exact .refl
    | step _ hm ih => exact ih.step (kids_children hm)
  · rintro ⟨x, a, hx, hd⟩
    refine ⟨x, a, hx, ?_⟩
    have ha := inv.valid x a hx
    induction hd with
    | refl => exact .refl
    | @step b c hb hm ih => exact ih.step (children_kids inv.wf (descends_le inv.wf ha ih).2 hm)

theorem gone_iff {s : DState} (inv : Inv s) : ∀ z, Gone s z ↔ ¬ Held s z := by
  intro z
  constructor
  · intro h
    induction h with
    | @mk z hx _ ih =>
      rintro ⟨x, a, ha, hd⟩
      cases hd with
      | refl => exact hx x ha
      | @step b _ hb hm =>
        exact ih b (descends_le inv.wf (inv.valid x a ha) hb).2 (mem_children.1 (kids_children hm)) ⟨x, a, ha, hb⟩
  · induction z using Nat.strongRecOn with
    | ind z ih =>
      intro hn
      refine .mk (fun x hx => hn ⟨x, z, hx, .refl⟩) (fun p hp hm => ?_)
      have hm' := mem_children.2 hm
      obtain ⟨b, hb, hlt, _⟩ := inv.wf.up p hp _ hm'
      cases hb
      exact ih p hlt (fun ⟨x, a, ha, hd⟩ => hn ⟨x, a, ha, hd.step (children_kids inv.wf hp hm')⟩)

theorem unheld_step {c : Cmd} {s s' : DState} (inv : Inv s) (inv' : Inv s') (he : Effect c s s') {z : Nat} (hz : z < s.heap.next)
    (hn : ¬ Held s z) : ¬ Held s' z := by
  rw [held_reach inv] at hn
  rw [held_reach inv']
  rintro ⟨x, a, hx, hr⟩
  -- a way to `z` from an old object is an old way
  have old : ∀ {b z}, b < s.heap.next → z < s.heap.next → Reach s'.heap b z → Reach s.heap b z := by
    intro b z hb hz h
    induction h with
    | refl => exact .refl
    | @step u v hu hm ih =>
      have hbu := Reach.bounds inv'.wf (Nat.lt_of_lt_of_le hb he.mono) hu
      obtain ⟨w, hw, hlt, _⟩ := inv'.wf.up u hbu.2 _ hm
      cases hw
      have hu' : u < s.heap.next := by omega
      exact (ih hu').step (he.kids u v hu' hz hm)
  have hle := Reach.bounds inv'.wf (inv'.valid x a hx) hr
  have ha : a < s.heap.next := by omega
  by_cases hb : c.binds = some x
  · rcases he.bound x a hb hx with h1 | h1 | ⟨y, b, _, hy, hr'⟩
    · exact hn ⟨x, a, h1, old ha hz hr⟩
    · omega
    · exact hn ⟨y, b, hy, old (inv.valid y b hy) hz (hr'.trans hr)⟩
  · rw [he.env x hb] at hx
    exact hn ⟨x, a, hx, old ha hz hr⟩

/-! ## C112 -/

/-- Whatever a program does with Datagrams, an object is destroyed exactly if no variable holds a datagram that it is a
visible part of: nothing leaks and nothing in use is destroyed. -/
theorem C112_destroyed_exactly {s : DState} (h : Reachable s) (z : Nat) : Gone s z ↔ ¬ Held s z := gone_iff h.inv z

/-- When the last variable is gone, so is every object. -/
theorem C112_no_leak {s : DState} (h : Reachable s) (he : ∀ x, s.env x = none) (z : Nat) : Gone s z :=
  (gone_iff h.inv z).2 (fun ⟨x, a, hx, _⟩ => by rw [he x] at hx; cases hx)

/-- An object that is destroyed stays so and is never written to again, whatever the program goes on to do. -/
theorem C112_never_again {s s' : DState} (h : Reachable s) {z : Nat} (hz : z < s.heap.next) (hg : Gone s z) {prog : List Cmd}
    (hr : Cmd.runAll prog s = some s') : Gone s' z ∧ s'.heap.node z = s.heap.node z := by
  have key : ∀ (prog : List Cmd) {s : DState}, Inv s → z < s.heap.next → ¬ Held s z → ∀ {s'}, Cmd.runAll prog s = some s' →
      Inv s' ∧ ¬ Held s' z ∧ s'.heap.node z = s.heap.node z := by
    intro prog
    induction prog with
    | nil => intro s inv _ hn s' e; cases e; exact ⟨inv, hn, rfl⟩
    | cons c cs ih =>
      intro s inv hz hn s' e
      obtain ⟨s1, hr1, inv1, he⟩ := cmd_step inv c (runAll_sound _ e c (by simp))
      have e' : Cmd.runAll cs s1 = some s' := by
        rcases hr1 with hr1 | ⟨x, hr1⟩ <;> simpa only [Cmd.runAll, hr1] using e
      obtain ⟨i, n, k⟩ := ih inv1 (Nat.lt_of_lt_of_le hz he.mono) (unheld_step inv inv1 he hz hn) e'
      refine ⟨i, n, k.trans (he.frame z hz (fun y a _ hy hra => hn ((held_reach inv).2 ⟨y, a, hy, hra⟩)))⟩
  obtain ⟨i, n, k⟩ := key prog h.inv hz ((gone_iff h.inv z).1 hg) hr
  exact ⟨(gone_iff i z).2 n, k⟩

/-- With raw datagrams it is different: the objects of a cycle, and all below, are never destroyed, even if no variable is
left. -/
theorem C112_cycle_leaks {s : DState} {a b z : Nat} (hcl : Closed s.heap) (ha : a < s.heap.next) (hab : some b ∈ (s.heap.node a).kids)
    (hba : Descends s.heap b a) (hc' : Descends s.heap a z) : ¬ Gone s z := by
  have up : ∀ {x y}, x < s.heap.next → Descends s.heap x y → y < s.heap.next := by
    intro x y hx h
    induction h with
    | refl => exact hx
    | step _ hm ih => exact hcl _ ih _ hm
  intro h
  induction h with
  | @mk z _ _ ih =>
    cases hc' with
    | refl =>
      -- the predecessor of `a` on the cycle
      cases hba with
      | refl => exact ih a ha (mem_children.1 (kids_children hab)) .refl
      | @step p _ hp hm =>
        have hap : Descends s.heap a p := by
          clear ih hm
          induction hp with
          | refl => exact .step .refl hab
          | step _ hm ih => exact ih.step hm
        exact ih p (up ha hap) (mem_children.1 (kids_children hm)) hap
    | @step p _ hp hm => exact ih p (up ha hp) (mem_children.1 (kids_children hm)) hp

namespace Ex
/-- A dictionary with a list in it; a handle on the list is kept, the dictionary is cleared and its variable ends. -/
def keep : List Cmd := [.make 0 .dict, .indexKey 1 0 (bs "l"), .addVal 1 (.int 1), .indexKey 2 0 (bs "m"), .drop 2, .clear 0, .drop 0]
end Ex

/-- Variables that no statement binds stay unbound. -/
theorem unbound {x : Nat} : ∀ (prog : List Cmd) {s s' : DState}, Inv s → s.env x = none → (∀ c ∈ prog, c.binds ≠ some x) →
    Cmd.runAll prog s = some s' → s'.env x = none := by
  intro prog
  induction prog with
  | nil => intro s s' _ h _ e; cases e; exact h
  | cons c cs ih =>
    intro s s' inv h hb e
    obtain ⟨s1, hr1, inv1, he⟩ := cmd_step inv c (runAll_sound _ e c (by simp))
    have e' : Cmd.runAll cs s1 = some s' := by
      rcases hr1 with hr1 | ⟨x, hr1⟩ <;> simpa only [Cmd.runAll, hr1] using e
    exact ih inv1 ((he.env x (hb c (by simp))).trans h) (fun c hc => hb c (by simp [hc])) e'

theorem Ex.keep_run (more : List Cmd) (hm : ∀ c ∈ more, ∀ x, 2 < x → c.binds ≠ some x) {s : DState}
    (hr : Cmd.runAll (Ex.keep ++ more) Cmd.init = some s) : ∀ x, 2 < x → s.env x = none := by
  intro x hx
  refine unbound _ Inv.init rfl ?_ hr
  intro c hc
  rcases List.mem_append.1 hc with hc | hc
  · simp only [Ex.keep, List.mem_cons, List.not_mem_nil, or_false] at hc
    rcases hc with rfl | rfl | rfl | rfl | rfl | rfl | rfl <;> simp only [Cmd.binds, ne_eq, Option.some.injEq, reduceCtorEq, not_false_eq_true] <;> omega
  · exact hm c hc x hx

-- the list and its element (objects 1, 2) live on, the dictionary and the other entry (0, 3) are destroyed
example : ∃ s, Reachable s ∧ ¬ Gone s 1 ∧ ¬ Gone s 2 ∧ Gone s 0 ∧ 3 < s.heap.next ∧ Gone s 3 := by
  have ev : (Cmd.runAll (Ex.keep ++ []) Cmd.init).map (fun s => (s.env 0, s.env 1, s.env 2, s.heap.next,
    decide ((s.heap.node 1).kids = [some 2]), decide ((s.heap.node 2).kids = []))) = some (none, some 1, none, 4, true, true) := by
    decide +kernel
  cases hr : Cmd.runAll (Ex.keep ++ []) Cmd.init with
  | none => rw [hr] at ev; cases ev
  | some s =>
    rw [hr] at ev
    simp only [Option.map_some, Option.some.injEq, Prod.mk.injEq, decide_eq_true_eq] at ev
    obtain ⟨e0, e1, e2, en, k1, k2⟩ := ev
    have hs : Reachable s := ⟨_, hr⟩
    have env : ∀ x a, s.env x = some a → a = 1 := by
      intro x a hx
      by_cases h : 2 < x
      · rw [Ex.keep_run [] (by simp) hr x h] at hx; cases hx
      · have : x = 0 ∨ x = 1 ∨ x = 2 := by omega
        rcases this with rfl | rfl | rfl
        · rw [e0] at hx; cases hx
        · rw [e1] at hx; cases hx; rfl
        · rw [e2] at hx; cases hx
    have below : ∀ {z}, Descends s.heap 1 z → z = 1 ∨ z = 2 := by
      intro z h
      induction h with
      | refl => exact .inl rfl
      | step _ hm ih =>
        rcases ih with rfl | rfl
        · rw [k1] at hm; simp at hm; exact .inr hm
        · rw [k2] at hm; cases hm
    have no : ∀ z, z ≠ 1 → z ≠ 2 → Gone s z := by
      intro z h1 h2
      rw [C112_destroyed_exactly hs]
      rintro ⟨x, a, hx, hd⟩
      rw [env x a hx] at hd
      rcases below hd with h | h
      · exact h1 h
      · exact h2 h
    refine ⟨s, hs, ?_, ?_, no 0 (by omega) (by omega), by omega, no 3 (by omega) (by omega)⟩
    · rw [C112_destroyed_exactly hs]; exact fun k => k ⟨1, 1, e1, .refl⟩
    · rw [C112_destroyed_exactly hs]; exact fun k => k ⟨1, 1, e1, .step .refl (by rw [k1]; simp)⟩
-- after the last variable has ended there are objects to destroy, and all are
example : ∃ s, Reachable s ∧ s.heap.next = 4 ∧ ∀ z, Gone s z := by
  have ev : (Cmd.runAll (Ex.keep ++ [.drop 1]) Cmd.init).map (fun s => (s.env 0, s.env 1, s.env 2, s.heap.next)) = some (none, none, none, 4) := by
    decide +kernel
  cases hr : Cmd.runAll (Ex.keep ++ [.drop 1]) Cmd.init with
  | none => rw [hr] at ev; cases ev
  | some s =>
    rw [hr] at ev
    simp only [Option.map_some, Option.some.injEq, Prod.mk.injEq] at ev
    obtain ⟨e0, e1, e2, en⟩ := ev
    refine ⟨s, ⟨_, hr⟩, en, C112_no_leak ⟨_, hr⟩ (fun x => ?_)⟩
    by_cases h : 2 < x
    · exact Ex.keep_run [.drop 1] (by intro c hc x hx; simp at hc; subst hc; simp [Cmd.binds]; omega) hr x h
    · have : x = 0 ∨ x = 1 ∨ x = 2 := by omega
      rcases this with rfl | rfl | rfl <;> assumption
-- the cycle of C23 with no variable at all
example : ¬ Gone ⟨Ex.cyclic, fun _ => none⟩ 1 :=
  C112_cycle_leaks (a := 0) (b := 1) Ex.cyclic_closed (by decide) (by decide) (.step .refl (by decide)) (.step .refl (by decide))

end LP
