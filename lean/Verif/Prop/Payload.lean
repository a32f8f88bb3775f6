import Verif.Spec.Payload
import Verif.Lemma.Observe
/-!
# C111: Datagrams that threads exchange through a bus
-/
namespace LP.Payload
open Heap

theorem step_cmd {t : Nat} {a : Act} {σ σ' : St} (h : step t a σ = some σ') :
    (a.cmd = none ∧ σ'.d = σ.d) ∨ ∃ c, a.cmd = some c ∧ Cmd.runAll [c] σ.d = some σ'.d := by
  cases a with
  | lock => simp only [step] at h; split at h <;> cases h; exact .inl ⟨rfl, rfl⟩
  | unlock => simp only [step] at h; split at h <;> cases h; exact .inl ⟨rfl, rfl⟩
  | api c =>
    simp only [step, Option.map_eq_some_iff] at h
    obtain ⟨d, h1, h2⟩ := h
    exact .inr ⟨c, rfl, by rw [h1, ← h2]⟩
  | _ =>
    simp only [step] at h
    split at h
    · simp only [Option.map_eq_some_iff] at h
      obtain ⟨d, h1, h2⟩ := h
      exact .inr ⟨_, rfl, by rw [h1, ← h2]⟩
    · cases h

theorem writes_vars {c : Cmd} {v : Nat} (h : c.writes = some v ∨ c.binds = some v) : v ∈ c.vars := by
  cases c <;> simp only [Cmd.writes, Cmd.binds, Cmd.vars, reduceCtorEq, Option.some.injEq, false_or, or_false] at h ⊢ <;> grind

/-- A step writes only on the side of one owner. -/
theorem confined_side {own : Nat → Option Nat} {t : Nat} {a : Act} {c : Cmd} (ho : Act.Owned own t a) (hc : a.cmd = some c)
    (w : Option Nat) : Confined (fun v => own v = w) c ∨ Confined (fun v => ¬ own v = w) c := by
  have key : ∀ u, (∀ v, c.writes = some v ∨ c.binds = some v → own v = u) →
      Confined (fun v => own v = w) c ∨ Confined (fun v => ¬ own v = w) c := by
    intro u hu
    by_cases e : u = w
    · subst e; exact .inl ⟨fun y hy => hu y (.inl hy), fun y hy => hu y (.inr hy)⟩
    · exact .inr ⟨fun y hy h => e ((hu y (.inl hy)).symm.trans h), fun y hy h => e ((hu y (.inr hy)).symm.trans h)⟩
  cases a with
  | lock => cases hc
  | unlock => cases hc
  | api d => cases hc; exact key (some t) (fun v hv => ho v (writes_vars hv))
  | push q x => cases hc; exact key none (fun v hv => by simp [Cmd.writes, Cmd.binds] at hv; subst hv; exact ho.1)
  | take z q => cases hc; exact key (some t) (fun v hv => by simp [Cmd.writes, Cmd.binds] at hv; subst hv; exact ho.1)
  | clear q => cases hc; exact key none (fun v hv => by simp [Cmd.writes, Cmd.binds] at hv; subst hv; exact ho)

theorem separated_symm {L : Nat → Prop} {s : DState} (h : Separated L s) : Separated (fun v => ¬ L v) s := by
  intro x y a b z hx hy ha hb h1 h2
  exact h y x b a z (Classical.not_not.1 hy) hx hb ha h2 h1

theorem separated_symm' {L : Nat → Prop} {s : DState} (h : Separated (fun v => ¬ L v) s) : Separated L s := by
  intro x y a b z hx hy ha hb h1 h2
  exact h y x b a z hy (fun k => k hx) hb ha h2 h1

/-- Specification: no two variables of different threads share a RawDatagram, nor does one share with the queue (Bus.h:44). -/
structure Apart (own : Nat → Option Nat) (σ : St) : Prop where
  inv : Inv σ.d
  sep : ∀ w, Separated (fun v => own v = w) σ.d

theorem apart_step {own : Nat → Option Nat} {t : Nat} {a : Act} {σ σ' : St} (h : Apart own σ) (ho : Act.Owned own t a)
    (hs : step t a σ = some σ') : Apart own σ' := by
  rcases step_cmd hs with ⟨_, e⟩ | ⟨c, hc, hr⟩
  · exact ⟨by rw [e]; exact h.inv, fun w => by rw [e]; exact h.sep w⟩
  · have one : ∀ {L : Nat → Prop}, Confined L c → ∀ c' ∈ [c], Confined L c' := by
      intro L hL c' hc'; simp only [List.mem_singleton] at hc'; subst hc'; exact hL
    refine ⟨?_, fun w => ?_⟩
    · obtain ⟨s', h1, h2⟩ := runAll_inv [c] h.inv (runAll_sound _ hr)
      rw [hr] at h1; cases h1; exact h2
    · rcases confined_side ho hc w with k | k
      · exact (confined_docs h.inv (h.sep w) (one k) hr).2.1
      · exact separated_symm' (confined_docs h.inv (separated_symm (h.sep w)) (one k) hr).2.1

theorem apart_exec {own : Nat → Option Nat} : ∀ (as : List (Nat × Act)) {σ σ' : St}, Apart own σ →
    (∀ p ∈ as, Act.Owned own p.1 p.2) → exec as σ = some σ' → Apart own σ' := by
  intro as
  induction as with
  | nil => intro σ σ' h _ e; cases e; exact h
  | cons p as ih =>
    intro σ σ' h ho e
    obtain ⟨t, a⟩ := p
    simp only [exec, Option.bind_eq_some_iff] at e
    obtain ⟨σ1, e1, e2⟩ := e
    exact ih (apart_step h (ho (t, a) (by simp)) e1) (fun p hp => ho p (by simp [hp])) e2

theorem Reachable.apart {own : Nat → Option Nat} {σ : St} (h : Reachable own σ) : Apart own σ := by
  obtain ⟨as, ho, e⟩ := h
  exact apart_exec as ⟨Inv.init, fun w x y a b z _ _ ha => by cases ha⟩ ho e

/-! ## C111 -/

/-- Threads that do not share Datagram handles, but publish to each other through a bus as much as they like, never race on
the content of a Datagram: whenever two of them can go on, their next steps touch no object in common, not even to read. -/
theorem C111_no_race {own : Nat → Option Nat} {σ : St} (h : Reachable own σ) {t1 t2 : Nat} {a1 a2 : Act} (ht : t1 ≠ t2)
    (h1 : Enabled own σ t1 a1) (h2 : Enabled own σ t2 a2) (z : Nat) : ¬ (Touches σ a1 z ∧ Touches σ a2 z) := by
  rintro ⟨⟨c1, v1, b1, hc1, hv1, he1, hr1⟩, ⟨c2, v2, b2, hc2, hv2, he2, hr2⟩⟩
  have ap := h.apart
  -- whose variables they are
  have who : ∀ {t a c v}, Enabled own σ t a → a.cmd = some c → v ∈ c.vars → own v = some t ∨ (own v = none ∧ σ.holder = some t) := by
    intro t a c v ⟨ho, σ', hs⟩ hc hv
    cases a with
    | lock => cases hc
    | unlock => cases hc
    | api d => cases hc; exact .inl (ho v hv)
    | push q x =>
      cases hc
      simp only [Cmd.vars, List.mem_cons, List.not_mem_nil, or_false] at hv
      have hh : σ.holder = some t := by simp only [step] at hs; split at hs; assumption; cases hs
      rcases hv with rfl | rfl
      · exact .inr ⟨ho.1, hh⟩
      · exact .inl ho.2
    | take x q =>
      cases hc
      simp only [Cmd.vars, List.mem_cons, List.not_mem_nil, or_false] at hv
      have hh : σ.holder = some t := by simp only [step] at hs; split at hs; assumption; cases hs
      rcases hv with rfl | rfl
      · exact .inl ho.1
      · exact .inr ⟨ho.2, hh⟩
    | clear q =>
      cases hc
      simp only [Cmd.vars, List.mem_cons, List.not_mem_nil, or_false] at hv
      have hh : σ.holder = some t := by simp only [step] at hs; split at hs; assumption; cases hs
      subst hv
      exact .inr ⟨ho, hh⟩
  have diff : own v1 ≠ own v2 := by
    rcases who h1 hc1 hv1 with w1 | ⟨w1, l1⟩ <;> rcases who h2 hc2 hv2 with w2 | ⟨w2, l2⟩
    · rw [w1, w2]; intro e; cases e; exact ht rfl
    · rw [w1, w2]; exact fun e => by cases e
    · rw [w1, w2]; exact fun e => by cases e
    · rw [l1] at l2; cases l2; exact absurd rfl ht
  exact ap.sep (own v1) v1 v2 b1 b2 z rfl (fun e => diff e.symm) he1 he2 hr1 hr2

/-- And nothing another thread does changes what a thread sees in its own variables. -/
theorem C111_undisturbed {own : Nat → Option Nat} {σ σ' : St} (h : Reachable own σ) {t : Nat} {a : Act} (ho : Act.Owned own t a)
    (hs : step t a σ = some σ') {z u : Nat} (hz : own z = some u) (hu : u ≠ t) (pd : Dbl → Str) (po : Nat → Nat → Str) (q : Query) :
    observe pd po q σ'.d z = observe pd po q σ.d z := by
  have ap := h.apart
  rcases step_cmd hs with ⟨_, e⟩ | ⟨c, hc, hr⟩
  · rw [e]
  · have hcon : Confined (fun v => ¬ own v = some u) c := by
      have key : ∀ v, c.writes = some v ∨ c.binds = some v → own v ≠ some u := by
        intro v hv
        cases a with
        | lock => cases hc
        | unlock => cases hc
        | api d => cases hc; rw [ho v (writes_vars hv)]; intro e; cases e; exact hu rfl
        | push q x => cases hc; simp [Cmd.writes, Cmd.binds] at hv; subst hv; rw [ho.1]; exact fun e => by cases e
        | take x q => cases hc; simp [Cmd.writes, Cmd.binds] at hv; subst hv; rw [ho.1]; intro e; cases e; exact hu rfl
        | clear q =>
          cases hc; simp [Cmd.writes, Cmd.binds] at hv; subst hv
          have ho' : own q = none := ho
          rw [ho']; exact fun e => by cases e
      exact ⟨fun y hy => key y (.inl hy), fun y hy => key y (.inr hy)⟩
    obtain ⟨_, _, hd⟩ := confined_docs ap.inv (separated_symm (ap.sep (some u)))
      (by intro c' hc'; simp only [List.mem_singleton] at hc'; subst hc'; exact hcon) hr
    obtain ⟨henv, hrep⟩ := hd z (fun k => k hz)
    cases hb : σ.d.env z with
    | none => simp [observe, henv, hb]
    | some b =>
      obtain ⟨t', ht'⟩ := rep_exists ap.inv.wf (ap.inv.valid z b hb)
      rw [observe_rep pd po q hb ht', observe_rep pd po q (henv.trans hb) (hrep b t' hb ht')]

namespace Ex
/-- Variables 0–9 belong to thread 1, 10–19 to thread 2, the others are the queue. -/
def own (v : Nat) : Option Nat := if v < 10 then some 1 else if v < 20 then some 2 else none
/-- Thread 1 builds a dictionary, publishes it and goes on changing it while thread 2 receives and changes its copy. -/
def talk : List (Nat × Act) := [(1, .api (.make 0 .empty)), (1, .api (.indexKey 1 0 (bs "k"))), (1, .api (.assignVal 1 (.int 5))),
  (1, .api (.copyCtor 2 0)), (1, .lock), (1, .push 20 2), (1, .unlock), (2, .lock), (1, .api (.assignVal 1 (.int 6))),
  (2, .take 10 20), (1, .api (.clear 0)), (2, .clear 20), (2, .unlock), (2, .api (.indexKey 11 10 (bs "k")))]
end Ex

-- both threads can go on, one with a handle on a part of what it published, the other with what it received
example : ∃ σ, Reachable Ex.own σ ∧ Enabled Ex.own σ 1 (.api (.assignVal 1 (.int 7))) ∧
    Enabled Ex.own σ 2 (.api (.assignVal 11 (.int 8))) ∧ (∃ z, Touches σ (.api (.assignVal 11 (.int 8))) z) ∧
    observe (fun _ => []) (fun _ _ => []) (.getVal .int) σ.d 11 = some (.ok (.val (.int 5))) := by
  have ev : (exec Ex.talk init).map (fun σ => ((step 1 (.api (.assignVal 1 (.int 7))) σ).isSome,
      (step 2 (.api (.assignVal 11 (.int 8))) σ).isSome, (σ.d.env 11).isSome,
      match observe (fun _ => []) (fun _ _ => []) (.getVal .int) σ.d 11 with
      | some (.ok (.val v)) => some v
      | _ => none)) = some (true, true, true, some (.int 5)) := by decide +kernel
  cases he : exec Ex.talk init with
  | none => rw [he] at ev; cases ev
  | some σ =>
    rw [he] at ev
    simp only [Option.map_some, Option.some.injEq, Prod.mk.injEq] at ev
    obtain ⟨e1, e2, e3, e4⟩ := ev
    obtain ⟨b, hb⟩ := Option.isSome_iff_exists.1 e3
    refine ⟨σ, ⟨Ex.talk, ?_, he⟩, ⟨?_, Option.isSome_iff_exists.1 e1⟩, ⟨?_, Option.isSome_iff_exists.1 e2⟩,
      ⟨b, _, 11, b, rfl, by simp [Cmd.vars], hb, .refl⟩, by
        revert e4
        split
        · rename_i v hv; intro e; cases e; exact hv
        · intro e; cases e⟩
    · intro p hp
      simp only [Ex.talk, List.mem_cons, List.not_mem_nil, or_false] at hp
      rcases hp with rfl | rfl | rfl | rfl | rfl | rfl | rfl | rfl | rfl | rfl | rfl | rfl | rfl | rfl <;>
        simp [Act.Owned, Cmd.vars, Ex.own]
    · simp [Act.Owned, Cmd.vars, Ex.own]
    · simp [Act.Owned, Cmd.vars, Ex.own]

end LP.Payload
