import Verif.Spec.Race
/-!
# Which mutex protects which member
-/
namespace LP.Race
open Instr Locks.Mtx
open Locks (Mtx)

/-- Under which conditions on the mutexes owned a member is accessed. -/
def May (P : Policy) (H : List Mtx) : Loc → Bool → Prop
  | .queue, _ => queue ∈ H
  | .subs b, _ => subs b ∈ H
  | .kids b, _ => kids b ∈ H
  | .pubs b, _ => pubs b ∈ H
  | .provs b, _ => provs b ∈ H
  | .cons b, _ => cons b ∈ H
  | .forward _, w => w = true → P.detaches = true
  | .callback b _, _ => P.setters = true ∨ subs b ∈ H
  | .function _ _, w => w = true → P.deletes = true
  | .requests _, _ => P.outside = true ∨ notifier ∈ H
  | .handler _, w => w = true → P.resets = true
  | .response _, w => (w = true → notifier ∈ H) ∧ (P.outside = true ∨ notifier ∈ H)

/-- `k` is code a thread may be at while it owns exactly the mutexes `H` (the last one first). -/
def Good (P : Policy) : List Mtx → List Instr → Prop
  | H, [] => H = []
  | H, lock m :: k => Good P (m :: H) k
  | H, unlock m :: k => ∃ H', H = m :: H' ∧ Good P H' k
  | H, .read l :: k => May P H l false ∧ Good P H k
  | H, .write l _ :: k => May P H l true ∧ Good P H k
  | H, atom _ :: k => notifier ∈ H ∧ Good P H k
  | H, call op :: k => P.allows (decide (notifier ∈ H)) op ∧ Good P H k
  | H, forwardTest _ :: k => Good P H k
  | H, publishTest _ _ :: k => Good P H k
  | H, childTest b :: k => kids b ∈ H ∧ Good P H k
  | H, newChild b :: k => kids b ∈ H ∧ Good P H k
  | H, detachAt _ :: k => P.detaches = true ∧ Good P H k
  | H, detachIter b :: k => (P.detaches = true ∧ kids b ∈ H) ∧ Good P H k
  | H, visit _ :: k => notifier ∈ H ∧ Good P H k
  | H, subIter b :: k => (notifier ∈ H ∧ subs b ∈ H) ∧ Good P H k
  | H, receive b _ :: k => (notifier ∈ H ∧ subs b ∈ H) ∧ Good P H k
  | H, receiveTest b _ :: k => (notifier ∈ H ∧ subs b ∈ H) ∧ Good P H k
  | H, kidIter b :: k => (notifier ∈ H ∧ kids b ∈ H) ∧ Good P H k
  | H, lambdaTest _ :: k => notifier ∈ H ∧ Good P H k
  | H, wait _ :: k => (P.outside = true ∨ notifier ∈ H) ∧ Good P H k
  | H, runTop :: k => ∃ H', H = notifier :: H' ∧ Good P H' k
  | H, runWait :: k => ∃ H', H = notifier :: H' ∧ Good P H' k
  | H, runWoken :: k => ∃ H', H = notifier :: H' ∧ Good P H' k
  | H, batchLoop :: k => ∃ H', H = notifier :: H' ∧ Good P H' k
  | H, asleep :: k => Good P H k

/-- A loop whose body needs nothing but mutexes that are held. -/
theorem good_flatMap {P : Policy} {H : List Mtx} {α : Type} {f : α → List Instr} {k : List Instr}
    (hf : ∀ a k, Good P H k → Good P H (f a ++ k)) : ∀ {l : List α}, Good P H k → Good P H (l.flatMap f ++ k)
  | [], h => h
  | a :: l, h => by
    rw [List.flatMap_cons, List.append_assoc]
    exact hf a _ (good_flatMap hf h)

theorem good_calls {P : Policy} {H : List Mtx} {k : List Instr} : ∀ {ops : List Op},
    (∀ op ∈ ops, P.allows (decide (notifier ∈ H)) op) → Good P H k → Good P H (ops.map call ++ k)
  | [], _, h => h
  | op :: _, ho, h =>
    ⟨ho op List.mem_cons_self, good_calls (fun o m => ho o (List.mem_cons_of_mem _ m)) h⟩

/-- The functions follow the rules. -/
theorem good_enter {P : Policy} {σ : St} {op : Op} {H : List Mtx} {k : List Instr}
    (ho : P.allows (decide (notifier ∈ H)) op) (h : Good P H k) : Good P H ((enter σ op).2 ++ k) := by
  cases op with
  | deleteSub b g s =>
    refine ⟨List.mem_cons_self, ?_, _, rfl, h⟩
    rcases ho with rfl | ho
    · exact .inr List.mem_cons_self
    · exact .inl ho
  | requestAsync c =>
    refine ⟨?_, fun e => by simp at e, h⟩
    rcases ho with ho | ho
    · exact .inr (of_decide_eq_true ho)
    · exact .inl ho
  | request c =>
    have h0 : P.outside = true ∨ notifier ∈ H := by
      rcases ho with ho | ho
      · exact .inr (of_decide_eq_true ho)
      · exact .inl ho
    exact ⟨h0, fun e => (by simp at e), h0, h⟩
  | _ => simp_all [enter, pushed, Good, May, Policy.allows]

theorem good_expand {P : Policy} {σ : St} {i : Instr} {H : List Mtx} {k k' : List Instr} {c : Choice}
    (hc : ∀ ops, c = .run ops → ∀ op ∈ ops, P.allows true op) (h : Good P H (i :: k))
    (he : expand σ i k c = some k') : Good P H k' := by
  cases i with
  | subIter b =>
    cases c <;> simp only [expand, reduceCtorEq, Option.some.injEq] at he
    subst he
    refine good_flatMap (fun s k hk => ?_) ?_
    · exact ⟨h.1.2, h.1, hk⟩
    · exact ⟨h.1.2, h.2⟩
  | kidIter b =>
    cases c <;> simp only [expand, reduceCtorEq, Option.some.injEq] at he
    subst he
    refine good_flatMap (fun s k hk => ?_) ?_
    · exact ⟨h.1.2, h.1.1, hk⟩
    · exact ⟨h.1.2, h.2⟩
  | detachIter b =>
    cases c <;> simp only [expand, reduceCtorEq, Option.some.injEq] at he
    subst he
    refine good_flatMap (fun s k hk => ?_) ?_
    · exact ⟨h.1.2, h.1.1, hk⟩
    · exact ⟨h.1.2, h.2⟩
  | receiveTest b s =>
    simp only [expand] at he
    have hcb : May P H (.callback b s) false := .inr h.1.2
    have hn : decide (notifier ∈ H) = true := decide_eq_true h.1.1
    split at he
    · split at he <;> simp at he
      subst he; exact h.2
    · rename_i kind _
      obtain ⟨code, hb, rfl⟩ := Option.map_eq_some_iff.1 he
      refine ⟨hcb, ?_⟩
      have hk : Good P H (.read (.callback b s) :: k) := ⟨hcb, h.2⟩
      cases kind with
      | user =>
        cases c <;> simp only [body, reduceCtorEq, Option.some.injEq] at hb
        subst hb
        exact good_calls (by rw [hn]; exact hc _ rfl) hk
      | response cc =>
        have hr : ∀ w, May P H (.requests cc) w := fun w => .inr h.1.1
        cases c <;> simp only [body, reduceCtorEq, Option.some.injEq] at hb
        · subst hb
          exact ⟨hr _, hk⟩
        · subst hb
          refine ⟨hr _, hr _, ?_⟩
          have h1 : Good P H (.write (.requests cc) .nothing :: .read (.callback b s) :: k) := ⟨hr true, hk⟩
          have := good_calls (by rw [hn]; exact hc _ rfl) h1
          simpa using this
        · subst hb
          exact ⟨hr _, hr _, h.1.1, hr _, hk⟩
      | request r =>
        have hr : May P H (.handler r) false := fun e => by cases e
        cases c <;> simp only [body, reduceCtorEq, Option.some.injEq] at hb
        subst hb
        refine ⟨hr, ?_⟩
        have h1 : Good P H (.read (.handler r) :: .read (.callback b s) :: k) := ⟨hr, hk⟩
        have := good_calls (by rw [hn]; exact hc _ rfl) h1
        simpa using this
  | forwardTest b =>
    cases c <;> simp only [expand, reduceCtorEq, Option.some.injEq] at he
    subst he
    split <;> simp_all [Good, May]
  | publishTest b p =>
    cases c <;> simp only [expand, reduceCtorEq, Option.some.injEq] at he
    subst he
    split <;> simp_all [Good, May]
  | lambdaTest n =>
    cases c <;> simp only [expand, reduceCtorEq, Option.some.injEq] at he
    subst he
    split <;> simp_all [Good, May]
  | wait n =>
    cases c <;> simp only [expand, reduceCtorEq, Option.some.injEq] at he
    · split at he <;> simp at he
      subst he
      exact ⟨⟨fun e => by simp at e, h.1⟩, h.2⟩
    · subst he
      exact ⟨⟨fun e => by simp at e, h.1⟩, h.2⟩
  | runTop =>
    obtain ⟨H', rfl, h⟩ := h
    cases c <;> simp only [expand, reduceCtorEq, Option.some.injEq] at he <;> subst he <;> simp_all [Good, May]
  | runWait =>
    obtain ⟨H', rfl, h⟩ := h
    cases c <;> simp only [expand, reduceCtorEq, Option.some.injEq] at he <;> subst he <;> simp_all [Good, May]
  | runWoken =>
    obtain ⟨H', rfl, h⟩ := h
    cases c <;> simp only [expand, reduceCtorEq, Option.some.injEq] at he <;> subst he <;> simp_all [Good, May]
  | batchLoop =>
    obtain ⟨H', rfl, h⟩ := h
    cases c <;> simp only [expand, reduceCtorEq, Option.some.injEq] at he <;> subst he <;> simp_all [Good]
  | _ => cases c <;> simp only [expand, reduceCtorEq, Option.some.injEq] at he <;> subst he <;> simp_all [Good, May]

/-- Every thread is at code that fits the mutexes it owns, and only threads own mutexes. -/
structure Inv (P : Policy) (σ : St) : Prop where
  good : ∀ t k, σ.threads[t]? = some k → ∃ H, Good P H k ∧ H.Nodup ∧ ∀ m, σ.owner m = some t ↔ m ∈ H
  owned : ∀ m t, σ.owner m = some t → t < σ.threads.length

@[simp] theorem apply_threads (σ : St) (e : Eff) : (σ.apply e).threads = σ.threads := by
  cases e <;> simp only [St.apply]
  split <;> rfl

@[simp] theorem apply_owner (σ : St) (e : Eff) : (σ.apply e).owner = σ.owner := by
  cases e <;> simp only [St.apply]
  split <;> rfl

@[simp] theorem enter_threads (σ : St) (op : Op) : (enter σ op).1.threads = σ.threads := by cases op <;> rfl

@[simp] theorem enter_owner (σ : St) (op : Op) : (enter σ op).1.owner = σ.owner := by cases op <;> rfl

/-- A thread moves on without touching a mutex. -/
theorem Inv.move {P : Policy} {σ τ : St} {t : Nat} {k k' : List Instr} (h : Inv P σ)
    (hk : σ.threads[t]? = some k) (hg : ∀ H, Good P H k → Good P H k')
    (ht : τ.threads = σ.threads.set t k') (ho : τ.owner = σ.owner) : Inv P τ := by
  refine ⟨fun u c hc => ?_, fun m u hm => ?_⟩
  · rw [ht] at hc
    rw [ho]
    by_cases e : u = t
    · subst e
      rw [List.getElem?_set_self (List.getElem?_eq_some_iff.1 hk).1] at hc
      cases hc
      obtain ⟨H, h1, h2⟩ := h.good u k hk
      exact ⟨H, hg H h1, h2⟩
    · rw [List.getElem?_set_ne (fun e' => e e'.symm)] at hc
      exact h.good u c hc
  · rw [ht, List.length_set]
    rw [ho] at hm
    exact h.owned m u hm

theorem Inv.lock {P : Policy} {σ : St} {t : Nat} {m : Mtx} {k : List Instr} (h : Inv P σ)
    (hk : σ.threads[t]? = some (lock m :: k)) (hm : σ.owner m = none) : Inv P ((σ.goto t k).own m (some t)) := by
  have hlt := (List.getElem?_eq_some_iff.1 hk).1
  refine ⟨fun u c hc => ?_, fun m' u hm' => ?_⟩
  · simp only [St.own, St.goto] at hc ⊢
    by_cases e : u = t
    · subst e
      rw [List.getElem?_set_self hlt] at hc
      cases hc
      obtain ⟨H, h1, h2, h3⟩ := h.good u _ hk
      refine ⟨m :: H, h1, List.nodup_cons.2 ⟨fun hmem => ?_, h2⟩, fun m' => ?_⟩
      · rw [(h3 m).2 hmem] at hm; cases hm
      · by_cases em : m' = m
        · simp [em]
        · simp [em, h3 m']
    · rw [List.getElem?_set_ne (fun e' => e e'.symm)] at hc
      obtain ⟨H, h1, h2, h3⟩ := h.good u c hc
      refine ⟨H, h1, h2, fun m' => ?_⟩
      by_cases em : m' = m
      · subst em
        rw [if_pos rfl]
        constructor
        · intro e'; cases e'; exact absurd rfl e
        · intro hmem; rw [(h3 m').2 hmem] at hm; cases hm
      · rw [if_neg em]; exact h3 m'
  · simp only [St.own, St.goto, List.length_set] at hm' ⊢
    split at hm'
    · cases hm'; exact hlt
    · exact h.owned m' u hm'

theorem Inv.unlock {P : Policy} {σ : St} {t : Nat} {m : Mtx} {k : List Instr} (h : Inv P σ)
    (hk : σ.threads[t]? = some (unlock m :: k)) (hm : σ.owner m = some t) : Inv P ((σ.goto t k).own m none) := by
  have hlt := (List.getElem?_eq_some_iff.1 hk).1
  refine ⟨fun u c hc => ?_, fun m' u hm' => ?_⟩
  · simp only [St.own, St.goto] at hc ⊢
    by_cases e : u = t
    · subst e
      rw [List.getElem?_set_self hlt] at hc
      cases hc
      obtain ⟨H, ⟨H', rfl, h1⟩, h2, h3⟩ := h.good u _ hk
      refine ⟨H', h1, (List.nodup_cons.1 h2).2, fun m' => ?_⟩
      by_cases em : m' = m
      · subst em
        simp [(List.nodup_cons.1 h2).1]
      · simp [em, h3 m']
    · rw [List.getElem?_set_ne (fun e' => e e'.symm)] at hc
      obtain ⟨H, h1, h2, h3⟩ := h.good u c hc
      refine ⟨H, h1, h2, fun m' => ?_⟩
      by_cases em : m' = m
      · subst em
        rw [if_pos rfl]
        constructor
        · intro e'; cases e'
        · intro hmem
          rw [(h3 m').2 hmem] at hm
          cases hm; exact absurd rfl e
      · rw [if_neg em]; exact h3 m'
  · simp only [St.own, St.goto, List.length_set] at hm' ⊢
    split at hm'
    · cases hm'
    · exact h.owned m' u hm'

theorem Inv.step {P : Policy} {σ σ' : St} {a : Act} (h : Inv P σ) (ha : P.permits σ a)
    (hs : step σ a = some σ') : Inv P σ' := by
  cases a with
  | spawn ops =>
    simp only [LP.Race.step, Option.some.injEq] at hs
    subst hs
    refine ⟨fun t k hk => ?_, fun m t hm => ?_⟩
    · rw [List.getElem?_append] at hk
      split at hk
      · exact h.good t k hk
      · rename_i hge
        have h0 : t = σ.threads.length := by
          have := (List.getElem?_eq_some_iff.1 hk).1
          simp at this; omega
        subst h0
        simp at hk
        subst hk
        refine ⟨[], ?_, List.nodup_nil, fun m => ?_⟩
        · have := good_calls (P := P) (H := []) (k := []) (ops := ops) (by
            have : decide (notifier ∈ ([] : List Mtx)) = false := by simp
            rw [this]; exact ha) rfl
          simpa using this
        · constructor
          · intro e; exact absurd (h.owned _ _ e) (by simp)
          · intro e; cases e
    · have := h.owned m t hm
      simp; omega
  | step t c =>
    have hc : ∀ ops, c = .run ops → ∀ op ∈ ops, P.allows true op := by
      rintro ops rfl; exact ha
    simp only [LP.Race.step] at hs
    split at hs
    · cases hs
    · cases hs
    · rename_i i k hk
      split at hs
      · split at hs <;> cases hs
        exact h.lock hk ‹_›
      · split at hs <;> cases hs
        exact h.unlock hk ‹_›
      · cases hs
        exact h.move hk (fun H hg => hg.2) rfl rfl
      · cases hs
        exact h.move hk (fun H hg => hg.2) (by simp [St.goto]) (by simp [St.goto])
      · cases hs
        exact h.move hk (fun H hg => hg.2) (by simp [St.goto]) (by simp [St.goto])
      · split at hs <;> cases hs
        exact h.move hk (fun H hg => good_enter (σ := σ) hg.1 hg.2) (by simp [St.goto]) (by simp [St.goto])
      · cases hs
        split
        · exact h.move (k' := .write (.kids _) (.child _ σ.nb) :: k) hk (fun H hg => hg) rfl rfl
        · exact h.move hk (fun H hg => hg.2) rfl rfl
      · obtain ⟨k', he, rfl⟩ := Option.map_eq_some_iff.1 hs
        exact h.move hk (fun H hg => good_expand hc hg he) rfl rfl

theorem inv_start {P : Policy} : Inv P start :=
  ⟨fun t k h => by simp [start] at h, fun m t h => by simp [start] at h⟩

theorem Inv.reach {P : Policy} {σ σ' : St} (h : Inv P σ) (hr : Reach P σ σ') : Inv P σ' := by
  induction hr with
  | refl => exact h
  | step _ ha hs ih => exact ih.step ha hs

/-- When nothing is being executed everything is in order. -/
theorem Ready.inv {P : Policy} {σ : St} (h : Ready σ) : Inv P σ := by
  have h1 := (inv_start (P := anything)).reach h.1
  refine ⟨fun t k hk => ?_, h1.owned⟩
  obtain ⟨H, h2, h3, h4⟩ := h1.good t k hk
  have := h.2 k (List.mem_of_getElem? hk)
  subst this
  cases (show H = [] from h2)
  exact ⟨[], rfl, h3, h4⟩

/-- What an access at the head of a thread says about the mutexes it owns. -/
theorem Inv.access {P : Policy} {σ : St} (h : Inv P σ) {t : Nat} {i : Instr} {k : List Instr} {l : Loc} {w : Bool}
    (hk : σ.threads[t]? = some (i :: k)) (ha : Accesses l w i) :
    ∃ H, May P H l w ∧ ∀ m, σ.owner m = some t ↔ m ∈ H := by
  obtain ⟨H, h1, h2, h3⟩ := h.good t _ hk
  refine ⟨H, ?_, h3⟩
  cases i <;> simp only [Accesses] at ha
  · obtain ⟨rfl, rfl⟩ := ha; exact h1.1
  · obtain ⟨rfl, rfl⟩ := ha; exact h1.1

/-- A member that is only accessed by the owner of a mutex is not raced on. -/
theorem Inv.no_race {P : Policy} {σ : St} (h : Inv P σ) {l : Loc} {m : Mtx} (hm : ∀ H w, May P H l w → m ∈ H) :
    ¬ Race σ l := by
  rintro ⟨t, t', i, i', k, k', w, w', hne, hk, hk', ha, ha', _⟩
  obtain ⟨H, h1, h2⟩ := h.access hk ha
  obtain ⟨H', h1', h2'⟩ := h.access hk' ha'
  have e := (h2 m).2 (hm H w h1)
  rw [(h2' m).2 (hm H' w' h1')] at e
  cases e; exact hne rfl

/-- Nor is one that is only read. -/
theorem Inv.no_race_read {P : Policy} {σ : St} (h : Inv P σ) {l : Loc} (hm : ∀ H, ¬ May P H l true) :
    ¬ Race σ l := by
  rintro ⟨t, t', i, i', k, k', w, w', hne, hk, hk', ha, ha', hw⟩
  obtain ⟨H, h1, h2⟩ := h.access hk ha
  obtain ⟨H', h1', h2'⟩ := h.access hk' ha'
  rcases hw with rfl | rfl
  · exact hm H h1
  · exact hm H' h1'

end LP.Race
