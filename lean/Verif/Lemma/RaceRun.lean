import Verif.Lemma.RaceResponse
/-!
# Executions with races
-/
namespace LP.Race
open Instr Locks.Mtx
open Locks (Mtx)

/-- `Policy.allows` as a test. -/
def allowsB (P : Policy) (inCallback : Bool) : Op → Bool
  | .setCb _ _ => P.setters
  | .createProvider _ => P.setters
  | .createConsumer _ => P.setters
  | .deleteSub b h _ => decide (b = h) || P.setters
  | .deletePub _ _ _ => P.deletes
  | .detach _ => P.detaches
  | .requestAsync _ => inCallback || P.outside
  | .request _ => inCallback || P.outside
  | .resetProvider _ => P.resets
  | _ => true

theorem allows_of {P : Policy} {c : Bool} {op : Op} (h : allowsB P c op = true) : P.allows c op := by
  cases op <;> simp_all [allowsB, Policy.allows]

/-- Is the event allowed, whatever the state? -/
def permitsB (P : Policy) : Act → Bool
  | .spawn ops => ops.all (allowsB P false)
  | .step _ (.run ops) => ops.all (allowsB P true)
  | .step _ .no => P.timeouts
  | _ => true

theorem permits_of {P : Policy} {σ : St} {a : Act} (h : permitsB P a = true) : P.permits σ a := by
  cases a with
  | spawn ops => exact fun op hop => allows_of (List.all_eq_true.1 h op hop)
  | step t c =>
    cases c with
    | run ops => exact fun op hop => allows_of (List.all_eq_true.1 h op hop)
    | no => exact .inl h
    | _ => trivial

theorem reach_exec {P : Policy} : ∀ {as : List Act} {σ₀ σ σ' : St}, Reach P σ₀ σ → as.all (permitsB P) = true →
    exec σ as = some σ' → Reach P σ₀ σ'
  | [], _, _, _, h, _, he => by cases he; exact h
  | a :: as, _, σ, _, h, hp, he => by
    simp only [List.all_cons, Bool.and_eq_true] at hp
    simp only [exec] at he
    cases hs : step σ a with
    | none => rw [hs] at he; cases he
    | some τ =>
      rw [hs] at he
      exact reach_exec (.step h (permits_of hp.1) hs) hp.2 he

/-- `n` steps of thread `t`. -/
def steps (t n : Nat) : List Act := List.replicate n (.step t .yes)

/-- The instructions the threads are at. -/
def heads (o : Option St) : Option (List (Option Instr)) := o.map (fun σ => σ.threads.map List.head?)

theorem heads_some {o : Option St} {hs : List (Option Instr)} (h : heads o = some hs) :
    ∃ σ, o = some σ ∧ σ.threads.map List.head? = hs := by
  cases o with
  | none => cases h
  | some σ => exact ⟨σ, rfl, by simpa [heads] using h⟩

/-- A set-up `init` by thread 0 that is complete, and a continuation after which threads 1 and 2 access `l`. -/
theorem race_of {P : Policy} {init more : List Act} {l : Loc} {i i' : Instr} {w w' : Bool}
    (h1 : heads (exec start init) = some [none])
    (h2 : heads ((exec start init).bind (fun σ => exec σ more)) = some [none, some i, some i'])
    (h3 : more.all (permitsB P) = true) (ha : Accesses l w i) (ha' : Accesses l w' i') (hw : w = true ∨ w' = true) :
    ∃ σ₀ σ, Ready σ₀ ∧ Reach P σ₀ σ ∧ Race σ l := by
  obtain ⟨σ₀, e0, t0⟩ := heads_some h1
  obtain ⟨σ, e1, t1⟩ := heads_some h2
  rw [e0] at e1
  have e1 : exec σ₀ more = some σ := e1
  refine ⟨σ₀, σ, ⟨reach_exec .refl ?_ e0, fun k hk => ?_⟩, reach_exec .refl h3 e1, ?_⟩
  · refine List.all_eq_true.2 fun a _ => ?_
    cases a with
    | spawn ops => exact List.all_eq_true.2 fun op _ => by cases op <;> simp [allowsB, anything]
    | step t c =>
      cases c with
      | run ops => exact List.all_eq_true.2 fun op _ => by cases op <;> simp [allowsB, anything]
      | _ => rfl
  · have : k.head? ∈ [none] := by rw [← t0]; exact List.mem_map_of_mem hk
    simpa using this
  · have g : ∀ (t : Nat) (j : Instr), (σ.threads.map List.head?)[t]? = some (some j) →
        ∃ k, σ.threads[t]? = some (j :: k) := by
      intro t j h
      rw [List.getElem?_map] at h
      obtain ⟨k, hk, hj⟩ := Option.map_eq_some_iff.1 h
      cases k with
      | nil => cases hj
      | cons j' k => cases hj; exact ⟨k, hk⟩
    obtain ⟨k1, hk1⟩ := g 1 i (by rw [t1]; rfl)
    obtain ⟨k2, hk2⟩ := g 2 i' (by rw [t1]; rfl)
    exact ⟨1, 2, i, i', k1, k2, w, w', by decide, hk1, hk2, ha, ha', hw⟩

/-- A policy that allows all that another one does. -/
def Policy.le (P Q : Policy) : Prop :=
  (P.setters = true → Q.setters = true) ∧ (P.deletes = true → Q.deletes = true) ∧
  (P.detaches = true → Q.detaches = true) ∧ (P.outside = true → Q.outside = true) ∧
  (P.resets = true → Q.resets = true) ∧ (P.timeouts = true → Q.timeouts = true)

theorem allows_mono {P Q : Policy} (h : P.le Q) {c : Bool} {op : Op} (ha : P.allows c op) : Q.allows c op := by
  obtain ⟨h1, h2, h3, h4, h5, h6⟩ := h
  cases op with
  | setCb => exact h1 ha
  | createProvider => exact h1 ha
  | createConsumer => exact h1 ha
  | deleteSub => exact ha.imp id h1
  | deletePub => exact h2 ha
  | detach => exact h3 ha
  | requestAsync => exact ha.imp id h4
  | request => exact ha.imp id h4
  | resetProvider => exact h5 ha
  | _ => trivial

theorem reach_mono {P Q : Policy} (h : P.le Q) {σ₀ σ : St} (hr : Reach P σ₀ σ) : Reach Q σ₀ σ := by
  induction hr with
  | refl => exact .refl
  | @step _ _ a _ ha hs ih =>
    refine .step ih ?_ hs
    cases a with
    | spawn ops => exact fun op hop => allows_mono h (ha op hop)
    | step t c =>
      cases c with
      | run ops => exact fun op hop => allows_mono h (ha op hop)
      | no => exact ha.imp h.2.2.2.2.2 id
      | _ => trivial

/-- From `Start` to the first subscriber of the root: the bus thread `t` is about to look at its callback. -/
def distributing (t : Nat) : List Act := steps t 17

theorem reach_trans {P : Policy} {a b c : St} (h : Reach P a b) (h' : Reach P b c) : Reach P a c := by
  induction h' with
  | refl => exact h
  | step _ ha hs ih => exact .step ih ha hs

theorem flag_false {b : Bool} (h : b = true → False) : b = false := by
  cases b
  · rfl
  · exact (h rfl).elim

end LP.Race
