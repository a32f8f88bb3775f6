import Verif.Lemma.Locks
/-!
# C41, C42, C73: blocking
-/
namespace LP.Locks
open Instr Mtx

/-- A child bus is created; then the bus thread runs up to the subscriber loop of the child bus. -/
def toChild : List Act :=
  [.spawn [.createChild 0]] ++ List.replicate 3 (.step 0 .yes) ++ [.spawn [.start]] ++
  List.replicate 11 (.step 1 .yes) ++ [.step 1 .no] ++ List.replicate 5 (.step 1 .yes)

/-- The threads then. -/
def atChild : List (List Instr) :=
  [[], [subLoop 1, unlock (subs 1), lock (kids 1), kidLoop 1, unlock (kids 1), unlock (kids 0), batchLoop]]

/-! ## C41 -/

/-- If a callback on bus `b` calls a function that manages subscribers of `b`, then whatever happens afterwards the
thread never comes back from that callback, and it keeps the subscribers mutex of `b`. -/
theorem C41_never_returns (σ σ₁ σ₂ : St) (t b : Nat) (k : List Instr) (ops : List Op) (h : Reach σ)
    (ht : σ.threads[t]? = some (subLoop b :: k))
    (hop : .createSub b ∈ ops ∨ .deleteSub b ∈ ops ∨ .containsSub b ∈ ops ∨ .createProvider b ∈ ops ∨
      .createConsumer b ∈ ops)
    (hs : step σ (.step t (.callback ops)) = some σ₁) (hl : Later σ₁ σ₂) :
    σ₂.owner (subs b) = some t ∧ ∃ c, c ≠ [] ∧ σ₂.threads[t]? = some (c ++ subLoop b :: k) := by
  obtain ⟨H, ⟨⟨H', rfl, B, _⟩, _⟩, _, h3⟩ := h.inv.good t _ ht
  have ho : σ.owner (subs b) = some t := (h3 _).2 List.mem_cons_self
  have hsh : Shut (subs b) (ops.flatMap code) := by
    rcases hop with h | h | h | h | h
    · exact Shut.of_mem h (.inl rfl)
    · exact Shut.of_mem h (.inl rfl)
    · exact Shut.of_mem h (.inl rfl)
    · exact Shut.of_mem h (.inl rfl)
    · exact Shut.of_mem h (.inr ⟨by simp [releases], .inr ⟨by simp [releases], .inl rfl⟩⟩)
  obtain ⟨hlt, _⟩ := List.getElem?_eq_some_iff.1 ht
  have h1 : Trapped (subs b) t (subLoop b :: k) σ₁ := by
    simp only [step, ht, expand, Option.map_some, Option.some.injEq] at hs
    subst hs
    exact ⟨ho, _, List.getElem?_set_self hlt, hsh⟩
  obtain ⟨ho', c, hc, hsc⟩ := h1.later hl
  refine ⟨ho', c, ?_, hc⟩
  rintro rfl
  exact hsc

/-- As soon as such a call asks for the mutex the thread cannot take another step, whatever happens. -/
theorem C41_no_further_step (σ σ' : St) (t : Nat) (m : Mtx) (hw : Waits σ t m t) (hl : Later σ σ') :
    Waits σ' t m t ∧ ¬ CanStep σ' t := by
  obtain ⟨⟨k, hk⟩, ho⟩ := hw
  have := stuck_later hl ⟨hk, ho⟩
  exact ⟨⟨⟨k, this.1.1⟩, this.1.2⟩, this.2⟩

/-- In particular at once, if the callback begins with one of the first four calls. -/
theorem C41_blocks_at_once (σ σ₁ σ₂ : St) (t b : Nat) (k : List Instr) (op : Op) (ops : List Op) (h : Reach σ)
    (ht : σ.threads[t]? = some (subLoop b :: k))
    (hop : op = .createSub b ∨ op = .deleteSub b ∨ op = .containsSub b ∨ op = .createProvider b)
    (hs : step σ (.step t (.callback (op :: ops))) = some σ₁) (hl : Later σ₁ σ₂) : ¬ CanStep σ₂ t := by
  obtain ⟨H, ⟨⟨H', rfl, B, _⟩, _⟩, _, h3⟩ := h.inv.good t _ ht
  have ho : σ.owner (subs b) = some t := (h3 _).2 List.mem_cons_self
  obtain ⟨hlt, _⟩ := List.getElem?_eq_some_iff.1 ht
  simp only [step, ht, expand, Option.map_some, Option.some.injEq] at hs
  subst hs
  have hw : ∃ k', (σ.threads.set t (List.flatMap code (op :: ops) ++ subLoop b :: k))[t]? = some (lock (subs b) :: k') := by
    rw [List.getElem?_set_self hlt]
    rcases hop with rfl | rfl | rfl | rfl <;> exact ⟨_, rfl⟩
  obtain ⟨k', hk'⟩ := hw
  exact (stuck_later hl ⟨hk', ho⟩).2

/-- A state in which a callback on the child bus is about to run. -/
example : ∃ σ, Reach σ ∧ σ.threads[1]? = some (subLoop 1 :: [unlock (subs 1), lock (kids 1), kidLoop 1,
    unlock (kids 1), unlock (kids 0), batchLoop]) ∧
    (step σ (.step 1 (.callback [.publish, .createConsumer 1]))).isSome = true ∧
    (step σ (.step 1 (.callback [.deleteSub 1]))).isSome = true := by
  obtain ⟨σ, h1, h2⟩ := exec_obs (as := toChild) (ts := atChild) (by decide +kernel)
  refine ⟨σ, exec_reach .start h1, by rw [h2]; rfl, ?_, ?_⟩
  · simp [step, h2, atChild, expand]
  · simp [step, h2, atChild, expand]

/-! ## C73 -/

/-- If a callback on bus `b` calls `CreateChildBus`, `GetChildBus` or `Detach` of a bus above `b`, or `Start` of the
root, it never comes back. -/
theorem C73_never_returns (σ σ₁ σ₂ : St) (t a b : Nat) (k : List Instr) (ops : List Op) (h : Reach σ)
    (ht : σ.threads[t]? = some (subLoop b :: k))
    (hop : (Below σ a b ∧ (.createChild a ∈ ops ∨ .getChild a ∈ ops ∨ .detach a ∈ ops)) ∨ .start ∈ ops)
    (hs : step σ (.step t (.callback ops)) = some σ₁) (hl : Later σ₁ σ₂) :
    ∃ c, c ≠ [] ∧ σ₂.threads[t]? = some (c ++ subLoop b :: k) := by
  have hf : ∃ op ∈ ops, Forbidden σ b op := by
    rcases hop with ⟨hb, h | h | h⟩ | h
    · exact ⟨_, h, hb⟩
    · exact ⟨_, h, hb⟩
    · exact ⟨_, h, hb⟩
    · exact ⟨_, h, trivial⟩
  obtain ⟨op, hmem, hf⟩ := hf
  obtain ⟨m, ho, hsh⟩ := forbidden_shut h ht hf
  obtain ⟨hlt, _⟩ := List.getElem?_eq_some_iff.1 ht
  have h1 : Trapped m t (subLoop b :: k) σ₁ := by
    simp only [step, ht, expand, Option.map_some, Option.some.injEq] at hs
    subst hs
    exact ⟨ho, _, List.getElem?_set_self hlt, Shut.of_mem hmem hsh⟩
  obtain ⟨_, c, hc, hsc⟩ := h1.later hl
  refine ⟨c, ?_, hc⟩
  rintro rfl
  exact hsc

/-- The bus thread in the callback on the child bus, below the root. -/
example : ∃ σ, Reach σ ∧ (∃ k, σ.threads[1]? = some (subLoop 1 :: k)) ∧ Below σ 0 1 ∧
    (step σ (.step 1 (.callback [.getChild 0]))).isSome = true := by
  obtain ⟨σ, h1, h2⟩ := exec_obs (as := toChild) (ts := atChild) (by decide +kernel)
  refine ⟨σ, exec_reach .start h1, ⟨_, by rw [h2]; rfl⟩, .child ?_, ?_⟩
  · have : (exec start toChild).map (fun σ => σ.children 0) = some [1] := by decide +kernel
    rw [h1] at this
    rw [show σ.children 0 = [1] from Option.some.inj this]
    exact List.mem_singleton.2 rfl
  · simp [step, h2, atChild, expand]

/-! ## C42 -/

/-- If callbacks call nothing that C41 and C73 forbid, then whenever some thread is unfinished some thread can take a
step. -/
theorem C42_no_deadlock (σ : St) (h : PoliteReach σ) (t : Nat) (hu : Unfinished σ t) : ∃ t', CanStep σ t' := by
  apply Classical.byContradiction
  intro hno
  have hw : ∀ t, Unfinished σ t → ∃ m t', Waits σ t m t' := by
    intro t hu
    rcases canStep_or_waits h.inv hu with hc | hw
    · exact absurd ⟨t, hc⟩ hno
    · exact hw
  -- all unfinished threads
  classical
  let T := (List.range σ.threads.length).filter (fun t => decide (Unfinished σ t))
  have hT : ∀ t, Unfinished σ t → t ∈ T := by
    intro t hu
    refine List.mem_filter.2 ⟨?_, decide_eq_true hu⟩
    obtain ⟨i, k, hk⟩ := hu
    exact List.mem_range.2 (List.getElem?_eq_some_iff.1 hk).1
  refine no_circle h.reach.tree h.inv T (List.ne_nil_of_mem (hT t hu)) (fun t ht => ?_)
  obtain ⟨m, t', hw⟩ := hw t (of_decide_eq_true (List.mem_filter.1 ht).2)
  exact ⟨m, t', hT t' (owner_unfinished h.inv hw.2), hw⟩

/-- Nor do some of the threads ever wait for each other in a circle while others go on. -/
theorem C42_no_circular_wait (σ : St) (h : PoliteReach σ) (T : List Nat) (hne : T ≠ []) :
    ¬ ∀ t ∈ T, ∃ m, ∃ t' ∈ T, Waits σ t m t' :=
  fun hT => no_circle h.reach.tree h.inv T hne hT

/-- Whatever callbacks do, a thread that is finished owns no mutex, and only its owner ever unlocks a mutex. -/
theorem C42_mutexes_given_back (σ : St) (h : Reach σ) (t : Nat) :
    (σ.threads[t]? = some [] → ∀ m, σ.owner m ≠ some t) ∧
    (∀ m k, σ.threads[t]? = some (unlock m :: k) → σ.owner m = some t) := by
  refine ⟨fun ht m ho => ?_, fun m k ht => ?_⟩
  · obtain ⟨H, h1, _, h3⟩ := h.inv.good t _ ht
    have hm := (h3 m).1 ho
    rw [show H = [] from h1] at hm
    cases hm
  · obtain ⟨H, ⟨H', rfl, _⟩, _, h3⟩ := h.inv.good t _ ht
    exact (h3 m).2 List.mem_cons_self

/-- Two threads in a polite state, one of them waiting for the other: the bus thread holds the subscribers mutex of
the child bus, another thread wants to create a subscriber there. -/
example : ∃ σ, PoliteReach σ ∧ Unfinished σ 2 ∧ Waits σ 2 (subs 1) 1 := by
  obtain ⟨σ, h1, h2⟩ := exec_obs (as := toChild ++ [.spawn [.createSub 1]]) (ts := atChild ++ [section' (subs 1)])
    (by decide +kernel)
  refine ⟨σ, exec_polite ?_ .start h1, ⟨_, _, by rw [h2]; rfl⟩, ⟨_, by rw [h2]; rfl⟩, ?_⟩
  · intro a ha t ops e
    subst e
    simp [toChild] at ha
  · have : (exec start (toChild ++ [.spawn [.createSub 1]])).map (fun σ => σ.owner (subs 1)) = some (some 1) := by
      decide +kernel
    rw [h1] at this
    exact Option.some.inj this

/-- A finished thread. -/
example : ∃ σ, Reach σ ∧ σ.threads[0]? = some [] := by
  obtain ⟨σ, h1, h2⟩ := exec_obs (as := toChild) (ts := atChild) (by decide +kernel)
  exact ⟨σ, exec_reach .start h1, by rw [h2]; rfl⟩

end LP.Locks
