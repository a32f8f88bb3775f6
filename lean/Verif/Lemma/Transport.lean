import Verif.Model.Transport
import Verif.Lemma.Exchange
/-!
# Chains of copies
-/
namespace LP

theorem copy_one {s : DState} (hs : Reachable s) {x y : Nat} {t : Tree} (hx : Holds s x t) :
    ∃ s', Cmd.run (.copyCtor y x) s = .ok () s' ∧ Reachable s' ∧ Holds s' y t ∧ ∀ z, z ≠ y → s'.env z = s.env z := by
  obtain ⟨a, ha, ht⟩ := hx
  obtain ⟨h1, hr1, w1, hext, hrep1, _⟩ := copyCtor_spec hs.inv.wf ht
  have hrun : Cmd.run (.copyCtor y x) s = .ok () ⟨h1, fun z => if z = y then some s.heap.next else s.env z⟩ := by
    simp only [Cmd.run, Cmd.withVar, ha, Cmd.bindVar, hr1]
  exact ⟨_, hrun, hs.step hrun, ⟨s.heap.next, by simp, hrep1⟩, fun z hz => by simp [hz]⟩

/-- The variable at the end of a chain. -/
def lastVar (x : Nat) (ys : List Nat) : Nat := ys.getLast?.getD x

theorem hops_holds (ys : List Nat) {s : DState} (hs : Reachable s) {x : Nat} {t : Tree} (hx : Holds s x t) :
    ∃ s', Cmd.runAll (hops x ys) s = some s' ∧ Reachable s' ∧ Holds s' (lastVar x ys) t ∧
      ∀ z, z ∉ ys → s'.env z = s.env z := by
  induction ys generalizing s x with
  | nil => exact ⟨s, rfl, hs, hx, fun _ _ => rfl⟩
  | cons y ys ih =>
    obtain ⟨s1, hr1, hs1, hh1, he1⟩ := copy_one hs (y := y) hx
    obtain ⟨s2, hr2, hs2, hh2, he2⟩ := ih hs1 hh1
    refine ⟨s2, by simp only [hops, Cmd.runAll, hr1, hr2], hs2, ?_, ?_⟩
    · have : lastVar x (y :: ys) = lastVar y ys := by
        unfold lastVar
        rw [List.getLast?_cons]; rfl
      rw [this]; exact hh2
    · intro z hz
      simp only [List.mem_cons, not_or] at hz
      rw [he2 z hz.2, he1 z hz.1]

theorem runAll_append (as bs : List Cmd) (s : DState) :
    Cmd.runAll (as ++ bs) s = (Cmd.runAll as s).bind (Cmd.runAll bs) := by
  induction as generalizing s with
  | nil => rfl
  | cons c as ih =>
    simp only [List.cons_append, Cmd.runAll]
    cases Cmd.run c s with
    | ok a s' => exact ih s'
    | throw e s' => exact ih s'
    | ub => rfl
    | fuel => rfl

theorem hops_concat (x q : Nat) (ys : List Nat) : hops x (ys ++ [q]) = hops x ys ++ [.copyCtor q (lastVar x ys)] := by
  induction ys generalizing x with
  | nil => rfl
  | cons y ys ih =>
    simp only [List.cons_append, hops, ih]
    unfold lastVar
    rw [List.getLast?_cons]; rfl

/-- A chain ending in a variable not used before, then anything that leaves that variable alone. -/
theorem hops_keep {s : DState} (hs : Reachable s) {x q : Nat} {t : Tree} {ys : List Nat} {prog : List Cmd}
    (hx : Holds s x t) (hq : s.env q = none) (hqy : q ∉ ys) (hprog : ∀ c ∈ prog, Confined (fun v => v ≠ q) c)
    (hsound : ∀ c ∈ prog, c.Sound) :
    ∃ s1 s2, Cmd.runAll (hops x (ys ++ [q])) s = some s1 ∧ Cmd.runAll prog s1 = some s2 ∧ Reachable s2 ∧ Holds s2 q t := by
  obtain ⟨s0, hr0, hs0, hh0, he0⟩ := hops_holds ys hs hx
  obtain ⟨s1, hr1, hs1, hh1, he1⟩ := copy_one hs0 (y := q) hh0
  have hall : Cmd.runAll (hops x (ys ++ [q])) s = some s1 := by
    rw [hops_concat, runAll_append, hr0]
    simp only [Option.bind_some, Cmd.runAll, hr1]
  have hsep0 : Separated (fun v => v = q) s0 := by
    intro v w a b z hv _ ha; rw [hv, he0 q hqy, hq] at ha; cases ha
  obtain ⟨inv1, hsep1, _⟩ := confined_docs (prog := [.copyCtor q (lastVar x ys)]) (s' := s1) hs0.inv hsep0
    (by intro c hc; simp only [List.mem_singleton] at hc; subst hc; exact ⟨by simp [Cmd.writes], by simp [Cmd.binds]⟩)
    (by simp only [Cmd.runAll, hr1])
  have hsep1' : Separated (fun v => v ≠ q) s1 := by
    intro v w a b z hv hw ha hb h1 h2
    simp only [ne_eq, Decidable.not_not] at hw
    exact hsep1 w v b a z hw hv hb ha h2 h1
  obtain ⟨s2, hr2, inv2⟩ := runAll_inv prog inv1 hsound
  obtain ⟨_, _, hdoc⟩ := confined_docs inv1 hsep1' hprog hr2
  obtain ⟨henv, hrep⟩ := hdoc q (by simp)
  obtain ⟨a, ha, ht⟩ := hh1
  refine ⟨s1, s2, hall, hr2, ?_, ⟨a, henv.trans ha, hrep a t ha ht⟩⟩
  obtain ⟨p0, hp0⟩ := hs1
  exact ⟨p0 ++ prog, by rw [runAll_append, hp0]; exact hr2⟩

end LP
