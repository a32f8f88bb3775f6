import Verif.Spec.Locks
/-!
# Lock discipline of the bus functions
-/
namespace LP.Locks
open Instr Mtx

/-- What a thread may do depending on the mutexes `H` it owns (last one first): `lock H m`: take `m`; `visit H b`:
distribute on `b`; `chain H b`: walk over the children of `b` in `Detach`; `run H`: call `Start` of the root. -/
structure Rules where
  lock : List Mtx → Mtx → Prop
  visit : List Mtx → Nat → Prop
  chain : List Mtx → Nat → Prop
  run : List Mtx → Prop

/-- `k` is code a thread may be at while it owns exactly the mutexes `H`. -/
def Good (R : Rules) : List Mtx → List Instr → Prop
  | H, [] => H = []
  | H, lock m :: k => R.lock H m ∧ Good R (m :: H) k
  | H, unlock m :: k => ∃ H', H = m :: H' ∧ Good R H' k
  | H, visit b :: k => R.visit H b ∧ Good R H k
  | H, subLoop b :: k => (∃ H', H = subs b :: H' ∧ R.visit H' b) ∧ Good R H k
  | H, kidLoop b :: k => (∃ H', H = kids b :: H' ∧ R.visit H' b) ∧ Good R H k
  | H, detachLoop b :: k => R.chain H b ∧ Good R H k
  | H, addChild _ :: k => Good R H k
  | H, runTop :: k => ∃ H', H = notifier :: H' ∧ R.run H' ∧ Good R H' k
  | H, runWait :: k => ∃ H', H = notifier :: H' ∧ R.run H' ∧ Good R H' k
  | H, runWoken :: k => ∃ H', H = notifier :: H' ∧ R.run H' ∧ Good R H' k
  | H, batchLoop :: k => ∃ H', H = notifier :: H' ∧ R.run H' ∧ Good R H' k
  | H, asleep :: k => Good R H k

/-- What the rules have to satisfy for the code of the bus to follow them. -/
structure Fits (R : Rules) (children : Nat → List Nat) : Prop where
  run_lock : ∀ H, R.run H → R.lock H notifier
  run_queue : ∀ H, R.run H → R.lock (notifier :: H) queue
  run_visit : ∀ H, R.run H → R.visit (notifier :: H) 0
  visit_subs : ∀ H b, R.visit H b → R.lock H (subs b)
  visit_kids : ∀ H b, R.visit H b → R.lock H (kids b)
  visit_child : ∀ H b, R.visit H b → ∀ c ∈ children b, R.visit (kids b :: H) c
  chain_lock : ∀ H b, R.chain H b → ∀ c ∈ children b, R.lock H (kids c)
  chain_child : ∀ H b, R.chain H b → ∀ c ∈ children b, R.chain (kids c :: H) c

/-- A call of `op` is in order while `H` is owned. -/
def OpOk (R : Rules) (H : List Mtx) : Op → Prop
  | .publish => R.lock H queue
  | .createPub c => R.lock H (pubs c)
  | .deletePub c => R.lock H (pubs c)
  | .containsPub c => R.lock H (pubs c)
  | .createSub c => R.lock H (subs c)
  | .deleteSub c => R.lock H (subs c)
  | .containsSub c => R.lock H (subs c)
  | .createProvider c => R.lock H (subs c) ∧ R.lock H (pubs c) ∧ R.lock H (provs c)
  | .createConsumer c => R.lock H (pubs c) ∧ R.lock H (subs c) ∧ R.lock H (cons c)
  | .createChild c => R.lock H (kids c)
  | .getChild c => R.lock H (kids c)
  | .detach c => R.lock H (kids c) ∧ R.chain (kids c :: H) c
  | .start => R.run H ∧ R.lock H notifier

theorem Good.code {R : Rules} {H : List Mtx} {k : List Instr} (hk : Good R H k) :
    ∀ op, OpOk R H op → Good R H (code op ++ k) := by
  intro op h
  cases op
  case createProvider b =>
    simp only [OpOk] at h
    simp only [Locks.code, section', List.cons_append, List.nil_append, Good]
    exact ⟨h.1, H, rfl, h.2.1, H, rfl, h.2.2, H, rfl, hk⟩
  case createConsumer b =>
    simp only [OpOk] at h
    simp only [Locks.code, section', List.cons_append, List.nil_append, Good]
    exact ⟨h.1, H, rfl, h.2.1, H, rfl, h.2.2, H, rfl, hk⟩
  case createChild b => exact ⟨h, H, rfl, hk⟩
  case detach b => exact ⟨h.1, h.2, H, rfl, hk⟩
  case start => exact ⟨h.2, H, rfl, h.1, hk⟩
  all_goals exact ⟨h, H, rfl, hk⟩

theorem Good.codes {R : Rules} {H : List Mtx} {k : List Instr} (hk : Good R H k) (ops : List Op) :
    (∀ op ∈ ops, OpOk R H op) → Good R H (ops.flatMap Locks.code ++ k) := by
  induction ops with
  | nil => intro _; exact hk
  | cons op ops ih =>
    intro h
    rw [List.flatMap_cons, List.append_assoc]
    exact Good.code (ih (fun o ho => h o (List.mem_cons_of_mem _ ho))) op (h op List.mem_cons_self)

theorem Good.visits {R : Rules} {H : List Mtx} {k : List Instr} (hk : Good R H k) (cs : List Nat) :
    (∀ c ∈ cs, R.visit H c) → Good R H (cs.map visit ++ k) := by
  induction cs with
  | nil => intro _; exact hk
  | cons c cs ih =>
    intro h
    exact ⟨h c List.mem_cons_self, ih (fun o ho => h o (List.mem_cons_of_mem _ ho))⟩

/-- Rules that allow more. -/
structure Rules.Le (R R' : Rules) : Prop where
  lock : ∀ H m, R.lock H m → R'.lock H m
  visit : ∀ H b, R.visit H b → R'.visit H b
  chain : ∀ H b, R.chain H b → R'.chain H b
  run : ∀ H, R.run H → R'.run H

theorem Good.mono {R R' : Rules} (hle : R.Le R') (k : List Instr) : ∀ H, Good R H k → Good R' H k := by
  induction k with
  | nil => intro H h; exact h
  | cons i k ih =>
    intro H h
    cases i with
    | lock m => exact ⟨hle.lock _ _ h.1, ih _ h.2⟩
    | unlock m => obtain ⟨H', e, h⟩ := h; exact ⟨H', e, ih _ h⟩
    | visit b => exact ⟨hle.visit _ _ h.1, ih _ h.2⟩
    | subLoop b => obtain ⟨⟨H', e, h⟩, h2⟩ := h; exact ⟨⟨H', e, hle.visit _ _ h⟩, ih _ h2⟩
    | kidLoop b => obtain ⟨⟨H', e, h⟩, h2⟩ := h; exact ⟨⟨H', e, hle.visit _ _ h⟩, ih _ h2⟩
    | detachLoop b => exact ⟨hle.chain _ _ h.1, ih _ h.2⟩
    | addChild b => exact ih _ h
    | asleep => exact ih _ h
    | runTop => obtain ⟨H', e, h, h2⟩ := h; exact ⟨H', e, hle.run _ h, ih _ h2⟩
    | runWait => obtain ⟨H', e, h, h2⟩ := h; exact ⟨H', e, hle.run _ h, ih _ h2⟩
    | runWoken => obtain ⟨H', e, h, h2⟩ := h; exact ⟨H', e, hle.run _ h, ih _ h2⟩
    | batchLoop => obtain ⟨H', e, h, h2⟩ := h; exact ⟨H', e, hle.run _ h, ih _ h2⟩

/-- Tests and loops keep the code in order; the mutexes owned do not change. -/
theorem Good.expand {R : Rules} {ch : Nat → List Nat} (hR : Fits R ch) {H : List Mtx} {i : Instr}
    {k k' : List Instr} {c : Choice} (hg : Good R H (i :: k)) (he : expand ch i k c = some k')
    (hc : ∀ b ops, i = subLoop b → c = .callback ops → ∀ op ∈ ops, OpOk R H op) : Good R H k' := by
  unfold Locks.expand at he
  split at he <;> simp only [Option.some.injEq, reduceCtorEq] at he <;> subst he
  case h_1 b =>
    obtain ⟨h1, h2⟩ := hg
    exact ⟨hR.visit_subs _ _ h1, ⟨H, rfl, h1⟩, H, rfl, hR.visit_kids _ _ h1, ⟨H, rfl, h1⟩, H, rfl, h2⟩
  case h_2 => exact hg.2
  case h_3 => exact hg.2
  case h_4 b ops => exact Good.codes hg ops (hc b ops rfl rfl)
  case h_5 b =>
    obtain ⟨⟨H', rfl, h1⟩, h2⟩ := hg
    exact Good.visits h2 _ (hR.visit_child _ _ h1)
  case h_6 b =>
    obtain ⟨h1, h2⟩ := hg
    have key := Good.codes h2 ((ch b).map Op.detach) (fun op hop => by
      obtain ⟨c, hcm, rfl⟩ := List.mem_map.1 hop
      exact ⟨hR.chain_lock _ _ h1 c hcm, hR.chain_child _ _ h1 c hcm⟩)
    rwa [List.flatMap_map] at key
  case h_7 => exact hg
  case h_8 =>
    obtain ⟨H', rfl, h1, h2⟩ := hg
    exact ⟨hR.run_queue _ h1, _, rfl, H', rfl, h1, h2⟩
  case h_9 => obtain ⟨H', rfl, h1, h2⟩ := hg; exact ⟨H', rfl, h2⟩
  case h_10 =>
    obtain ⟨H', rfl, h1, h2⟩ := hg
    exact ⟨H', rfl, hR.run_lock _ h1, hR.run_queue _ h1, _, rfl, H', rfl, h1, h2⟩
  case h_11 => exact hg
  case h_12 =>
    obtain ⟨H', rfl, h1, h2⟩ := hg
    exact ⟨hR.run_queue _ h1, _, rfl, H', rfl, h1, h2⟩
  case h_13 => obtain ⟨H', rfl, h1, h2⟩ := hg; exact ⟨H', rfl, h2⟩
  case h_14 => exact hg
  case h_15 =>
    obtain ⟨H', rfl, h1, h2⟩ := hg
    exact ⟨hR.run_visit _ h1, H', rfl, h1, h2⟩
  case h_16 => exact hg

/-- The bus tree: child buses are younger than their parents and have one parent. -/
structure TreeOk (σ : St) : Prop where
  young : ∀ b, ∀ c ∈ σ.children b, b < c ∧ c < σ.nb
  uniq : ∀ a b c, c ∈ σ.children a → c ∈ σ.children b → a = b

/-- The invariant: every thread owns exactly the mutexes its code expects it to own. -/
structure Inv (R : Rules) (σ : St) : Prop where
  good : ∀ t k, σ.threads[t]? = some k → ∃ H, Good R H k ∧ H.Nodup ∧ ∀ m, σ.owner m = some t ↔ m ∈ H
  owned : ∀ m t, σ.owner m = some t → t < σ.threads.length

theorem Inv.start (R : Rules) : Inv R start :=
  ⟨fun _ _ h => (by cases h), fun _ _ h => (by cases h)⟩

theorem Inv.mono {R R' : Rules} {σ : St} (hle : R.Le R') (hi : Inv R σ) : Inv R' σ := by
  refine ⟨fun t k h => ?_, hi.owned⟩
  obtain ⟨H, h1, h2⟩ := hi.good t k h
  exact ⟨H, h1.mono hle, h2⟩

theorem set_get {l : List (List Instr)} {t t' : Nat} {k k' k₀ : List Instr} (ht : l[t]? = some k₀)
    (h : (l.set t k)[t']? = some k') : (t' = t ∧ k' = k) ∨ (t' ≠ t ∧ l[t']? = some k') := by
  by_cases e : t = t'
  · subst e
    obtain ⟨hlt, _⟩ := List.getElem?_eq_some_iff.1 ht
    rw [List.getElem?_set_self hlt] at h
    exact .inl ⟨rfl, (Option.some.inj h).symm⟩
  · rw [List.getElem?_set_ne e] at h
    exact .inr ⟨fun x => e x.symm, h⟩

/-- Replacing the code of one thread without touching mutexes. -/
theorem Inv.goto {R : Rules} {σ : St} (hi : Inv R σ) {t : Nat} {k k' : List Instr}
    (ht : σ.threads[t]? = some k) (hk : ∀ H, Good R H k → Good R H k') : Inv R (σ.goto t k') := by
  refine ⟨?_, ?_⟩
  · intro t' k'' h
    rcases set_get ht h with ⟨rfl, rfl⟩ | ⟨_, h⟩
    · obtain ⟨H, h1, h2⟩ := hi.good _ _ ht
      exact ⟨H, hk H h1, h2⟩
    · exact hi.good _ _ h
  · intro m t' h
    have := hi.owned m t' h
    simpa [St.goto] using this

theorem Inv.lock {R : Rules} {σ : St} (hi : Inv R σ) {t : Nat} {m : Mtx} {k : List Instr}
    (ht : σ.threads[t]? = some (lock m :: k)) (ho : σ.owner m = none) : Inv R ((σ.goto t k).own m (some t)) := by
  refine ⟨?_, ?_⟩
  · intro t' k'' h
    rcases set_get ht h with ⟨rfl, rfl⟩ | ⟨hne, h⟩
    · obtain ⟨H, h1, h2, h3⟩ := hi.good _ _ ht
      have hm : m ∉ H := fun hm => by rw [(h3 m).2 hm] at ho; cases ho
      refine ⟨m :: H, h1.2, List.nodup_cons.2 ⟨hm, h2⟩, fun m' => ?_⟩
      by_cases e : m' = m
      · subst e; simp [St.own]
      · simp [St.own, e, h3 m', St.goto]
    · obtain ⟨H, h1, h2, h3⟩ := hi.good _ _ h
      refine ⟨H, h1, h2, fun m' => ?_⟩
      by_cases e : m' = m
      · subst e
        have hm : m' ∉ H := fun hm => by rw [(h3 m').2 hm] at ho; cases ho
        simp [St.own, hm]; exact fun x => hne x.symm
      · simp [St.own, e, h3 m', St.goto]
  · intro m' t' h
    obtain ⟨hlt, _⟩ := List.getElem?_eq_some_iff.1 ht
    by_cases e : m' = m
    · subst e
      simp only [St.own, if_true, Option.some.injEq] at h
      subst h
      simpa [St.own, St.goto] using hlt
    · simp only [St.own, if_neg e] at h
      have := hi.owned m' t' h
      simpa [St.own, St.goto] using this

theorem Inv.unlock {R : Rules} {σ : St} (hi : Inv R σ) {t : Nat} {m : Mtx} {k : List Instr}
    (ht : σ.threads[t]? = some (unlock m :: k)) : Inv R ((σ.goto t k).own m none) := by
  have hown : σ.owner m = some t := by
    obtain ⟨H, ⟨H', rfl, _⟩, _, h3⟩ := hi.good _ _ ht
    exact (h3 m).2 List.mem_cons_self
  refine ⟨?_, ?_⟩
  · intro t' k'' h
    rcases set_get ht h with ⟨rfl, rfl⟩ | ⟨hne, h⟩
    · obtain ⟨H, ⟨H', rfl, h1⟩, h2, h3⟩ := hi.good _ _ ht
      obtain ⟨hm, hnd⟩ := List.nodup_cons.1 h2
      refine ⟨H', h1, hnd, fun m' => ?_⟩
      by_cases e : m' = m
      · subst e; simp [St.own, hm]
      · have := h3 m'
        simp only [List.mem_cons, e, false_or] at this
        simp [St.own, e, this, St.goto]
    · obtain ⟨H, h1, h2, h3⟩ := hi.good _ _ h
      refine ⟨H, h1, h2, fun m' => ?_⟩
      by_cases e : m' = m
      · subst e
        have hm : m' ∉ H := fun hm => by
          rw [(h3 m').2 hm] at hown
          exact hne (Option.some.inj hown)
        simp [St.own, hm]
      · simp [St.own, e, h3 m', St.goto]
  · intro m' t' h
    by_cases e : m' = m
    · subst e; simp [St.own] at h
    · simp only [St.own, if_neg e] at h
      have := hi.owned m' t' h
      simpa [St.own, St.goto] using this

theorem Inv.addKid {R : Rules} {σ : St} (hi : Inv R σ) (b : Nat) : Inv R (addKid σ b) := ⟨hi.good, hi.owned⟩

theorem Inv.spawn {R : Rules} {σ : St} (hi : Inv R σ) {k : List Instr} (hk : Good R [] k) :
    Inv R { σ with threads := σ.threads ++ [k] } := by
  refine ⟨?_, ?_⟩
  · intro t k' h
    simp only at h
    by_cases hlt : t < σ.threads.length
    · rw [List.getElem?_append_left hlt] at h
      exact hi.good t k' h
    · rw [List.getElem?_append_right (by omega)] at h
      have e : t - σ.threads.length = 0 := by
        obtain ⟨hl, _⟩ := List.getElem?_eq_some_iff.1 h
        simp only [List.length_cons, List.length_nil] at hl
        omega
      rw [e] at h
      simp only [List.getElem?_cons_zero, Option.some.injEq] at h
      subst h
      refine ⟨[], hk, List.nodup_nil, fun m => ⟨fun h => ?_, fun h => by cases h⟩⟩
      exact absurd (hi.owned m t h) hlt
  · intro m t h
    have := hi.owned m t h
    simp only [List.length_append, List.length_cons, List.length_nil]
    omega

/-- Every event keeps the invariant, provided callbacks keep to the rules. -/
theorem Inv.step {R : Rules} {σ σ' : St} (hR : Fits R σ.children) (hnil : ∀ op, OpOk R [] op) (hi : Inv R σ)
    {a : Act} (h : step σ a = some σ')
    (hc : ∀ t b k ops H, a = .step t (.callback ops) → σ.threads[t]? = some (subLoop b :: k) →
      Good R H (subLoop b :: k) → ∀ op ∈ ops, OpOk R H op) : Inv R σ' := by
  cases a with
  | spawn ops =>
    simp only [Locks.step, Option.some.injEq] at h
    subst h
    refine hi.spawn ?_
    have := Good.codes (R := R) (H := []) (k := []) rfl ops (fun op _ => hnil op)
    rwa [List.append_nil] at this
  | step t c =>
    simp only [Locks.step] at h
    split at h
    · rename_i m k ht
      split at h
      · rename_i ho
        cases h
        exact hi.lock ht ho
      · cases h
    · rename_i m k ht
      split at h
      · cases h
        exact hi.unlock ht
      · cases h
    · rename_i i k hl hu ht
      split at h
      · rename_i b
        split at h
        · rename_i hb
          cases h
          exact (hi.goto (k' := k) ht (fun H hg => hg)).addKid b
        · cases h
      · cases he : expand σ.children i k c with
        | none => rw [he] at h; cases h
        | some k' =>
          rw [he] at h
          simp only [Option.map_some, Option.some.injEq] at h
          subst h
          refine hi.goto ht (fun H hg => Good.expand hR hg he ?_)
          intro b ops e1 e2
          subst e1; subst e2
          exact hc t b k ops H rfl ht hg
    · cases h

/-- How the tree changes in a step: not at all, or one bus is added. -/
theorem step_children {σ σ' : St} {a : Act} (h : step σ a = some σ') :
    (σ'.children = σ.children ∧ σ'.nb = σ.nb) ∨
    ∃ b, b < σ.nb ∧ σ'.nb = σ.nb + 1 ∧
      σ'.children = fun i => if i = b then σ.children b ++ [σ.nb] else σ.children i := by
  cases a with
  | spawn ops =>
    simp only [Locks.step, Option.some.injEq] at h
    subst h
    exact .inl ⟨rfl, rfl⟩
  | step t c =>
    simp only [Locks.step] at h
    split at h
    · split at h
      · cases h; exact .inl ⟨rfl, rfl⟩
      · cases h
    · split at h
      · cases h; exact .inl ⟨rfl, rfl⟩
      · cases h
    · rename_i i k hl hu ht
      split at h
      · rename_i b
        split at h
        · rename_i hb
          cases h
          exact .inr ⟨b, hb, rfl, rfl⟩
        · cases h
      · cases he : expand σ.children i k c with
        | none => rw [he] at h; cases h
        | some k' =>
          rw [he] at h
          cases h
          exact .inl ⟨rfl, rfl⟩
    · cases h

theorem step_grows {σ σ' : St} {a : Act} (h : step σ a = some σ') (b : Nat) :
    ∀ c ∈ σ.children b, c ∈ σ'.children b := by
  intro c hc
  rcases step_children h with ⟨e, _⟩ | ⟨b', _, _, e⟩
  · rw [e]; exact hc
  · rw [e]
    simp only
    split
    · rename_i e'; subst e'; exact List.mem_append_left _ hc
    · exact hc

theorem TreeOk.step {σ σ' : St} {a : Act} (hi : TreeOk σ) (h : step σ a = some σ') : TreeOk σ' := by
  rcases step_children h with ⟨e, en⟩ | ⟨b', hb, en, e⟩
  · exact ⟨by rw [e, en]; exact hi.young, by rw [e]; exact hi.uniq⟩
  · have key : ∀ b, ∀ c ∈ σ'.children b, (c ∈ σ.children b ∧ c < σ.nb) ∨ (b = b' ∧ c = σ.nb) := by
      intro b c hc
      rw [e] at hc
      simp only at hc
      split at hc
      · rename_i e'; subst e'
        rcases List.mem_append.1 hc with hc | hc
        · exact .inl ⟨hc, (hi.young _ _ hc).2⟩
        · exact .inr ⟨rfl, List.mem_singleton.1 hc⟩
      · exact .inl ⟨hc, (hi.young _ _ hc).2⟩
    refine ⟨fun b c hc => ?_, fun x y c hx hy => ?_⟩
    · rcases key b c hc with ⟨h1, h2⟩ | ⟨rfl, rfl⟩
      · have := hi.young _ _ h1; omega
      · omega
    · rcases key x c hx with ⟨h1, h2⟩ | ⟨h1, h2⟩ <;> rcases key y c hy with ⟨h3, h4⟩ | ⟨h3, h4⟩
      · exact hi.uniq _ _ _ h1 h3
      · omega
      · omega
      · rw [h1, h3]

theorem Reach.tree {σ : St} (h : Reach σ) : TreeOk σ := by
  induction h with
  | start => exact ⟨fun _ _ h => (by cases h), fun _ _ _ h => (by cases h)⟩
  | step _ hs ih => exact ih.step hs

theorem PoliteReach.reach {σ : St} (h : PoliteReach σ) : Reach σ := by
  induction h with
  | start => exact .start
  | step _ _ hs ih => exact ih.step hs

theorem Below.lt {σ : St} (hy : TreeOk σ) {b c : Nat} (h : Below σ b c) : b < c := by
  induction h with
  | child h => exact (hy.young _ _ h).1
  | deeper _ h ih => have := (hy.young _ _ h).1; omega

/-! ## The mutexes owned during a distribution -/

/-- A thread that entered `Run` owning `B` and is now distributing on bus `b` owns `H`: the notifier mutex and the
child mutexes of all buses on the way from the root to `b`. -/
inductive Spine (ch : Nat → List Nat) (B : List Mtx) : List Mtx → Nat → Prop
  | root : Spine ch B (notifier :: B) 0
  | down {H : List Mtx} {b c : Nat} : Spine ch B H b → c ∈ ch b → Spine ch B (kids b :: H) c

theorem Spine.mono {ch ch' : Nat → List Nat} (hc : ∀ b, ∀ c ∈ ch b, c ∈ ch' b) {B H : List Mtx} {b : Nat}
    (h : Spine ch B H b) : Spine ch' B H b := by
  induction h with
  | root => exact .root
  | down _ hm ih => exact .down ih (hc _ _ hm)

theorem Spine.notifier {ch : Nat → List Nat} {B H : List Mtx} {b : Nat} (h : Spine ch B H b) : notifier ∈ H := by
  induction h with
  | root => exact List.mem_cons_self
  | down _ _ ih => exact List.mem_cons_of_mem _ ih

/-- All buses above `b` are on the way. -/
theorem Spine.above {σ : St} (hy : TreeOk σ) {B H : List Mtx} {b : Nat} (h : Spine σ.children B H b) {a : Nat}
    (ha : Below σ a b) : kids a ∈ H := by
  induction h with
  | root =>
    have := ha.lt hy
    omega
  | down hs hm ih =>
    cases ha with
    | child hm' =>
      have := hy.uniq _ _ _ hm hm'
      subst this
      exact List.mem_cons_self
    | deeper ha' hm' =>
      have := hy.uniq _ _ _ hm hm'
      subst this
      exact List.mem_cons_of_mem _ (ih ha')

/-- Only buses above `b` are on the way. -/
theorem Spine.only {σ : St} {H : List Mtx} {b : Nat} (h : Spine σ.children [] H b) :
    ∀ m ∈ H, m = Mtx.notifier ∨ ∃ a, m = kids a ∧ Below σ a b := by
  induction h with
  | root => intro m hm; exact .inl (List.mem_singleton.1 hm)
  | @down H b c hs hm ih =>
    intro m hmm
    rcases List.mem_cons.1 hmm with rfl | hmm
    · exact .inr ⟨b, rfl, .child hm⟩
    · rcases ih m hmm with h | ⟨a, e, ha⟩
      · exact .inl h
      · exact .inr ⟨a, e, .deeper ha hm⟩

/-- With a bus its parent is on the way. -/
theorem Spine.parent {σ : St} (hy : TreeOk σ) {H : List Mtx} {b : Nat} (h : Spine σ.children [] H b) {y z : Nat}
    (hz : kids z ∈ H) (hm : z ∈ σ.children y) : kids y ∈ H := by
  rcases h.only _ hz with e | ⟨a, e, ha⟩
  · cases e
  · cases e
    refine h.above hy ?_
    clear h hz
    induction ha with
    | child h => exact .deeper (.child hm) h
    | deeper _ h ih => exact .deeper ih h

/-! ## Any callbacks -/

/-- Nothing is forbidden. -/
def loose (ch : Nat → List Nat) : Rules :=
  ⟨fun _ _ => True, fun H b => ∃ B, Spine ch B H b, fun _ _ => True, fun _ => True⟩

theorem fits_loose (ch : Nat → List Nat) : Fits (loose ch) ch :=
  ⟨fun _ _ => trivial, fun _ _ => trivial, fun H _ => ⟨H, .root⟩, fun _ _ _ => trivial, fun _ _ _ => trivial,
   fun _ _ ⟨B, h⟩ _ hc => ⟨B, .down h hc⟩, fun _ _ _ _ _ => trivial, fun _ _ _ _ _ => trivial⟩

theorem opOk_loose (ch : Nat → List Nat) (H : List Mtx) (op : Op) : OpOk (loose ch) H op := by
  cases op <;> simp [OpOk, loose]

theorem Reach.inv {σ : St} (h : Reach σ) : Inv (loose σ.children) σ := by
  induction h with
  | start => exact Inv.start _
  | step _ hs ih =>
    refine (ih.step (fits_loose _) (opOk_loose _ []) hs (fun _ _ _ _ H _ _ _ op _ => opOk_loose _ H op)).mono ?_
    exact ⟨fun _ _ h => h, fun H b ⟨B, h⟩ => ⟨B, h.mono (step_grows hs)⟩, fun _ _ h => h, fun _ h => h⟩

theorem Reach.later {σ σ' : St} (h : Reach σ) (hl : Later σ σ') : Reach σ' := by
  induction hl with
  | refl => exact h
  | step _ hs ih => exact ih.step hs

/-! ## Callbacks that call nothing forbidden -/

/-- A thread owns nothing, or is in a callback of a subscriber on some bus. -/
def Base (ch : Nat → List Nat) (H : List Mtx) : Prop := H = [] ∨ ∃ b H', H = subs b :: H' ∧ Spine ch [] H' b

/-- A thread is inside `Detach` of bus `y`, itself called from `Detach` of its parent or by the program. -/
inductive Chain (ch : Nat → List Nat) : List Mtx → Nat → Prop
  | first {H : List Mtx} {y : Nat} : Base ch H → kids y ∉ H → Chain ch (kids y :: H) y
  | down {H : List Mtx} {x y : Nat} : Chain ch H x → y ∈ ch x → Chain ch (kids y :: H) y

/-- Which mutexes are taken while which are owned. -/
inductive Next (ch : Nat → List Nat) : List Mtx → Mtx → Prop
  | first {H : List Mtx} {m : Mtx} : Base ch H → m ∉ H → Next ch H m
  | detach {H : List Mtx} {y z : Nat} : Chain ch H y → z ∈ ch y → Next ch H (kids z)
  | subs {H : List Mtx} {b : Nat} : Spine ch [] H b → Next ch H (subs b)
  | kids {H : List Mtx} {b : Nat} : Spine ch [] H b → Next ch H (kids b)
  | queue : Next ch [notifier] queue

/-- The rules that hold when callbacks call nothing forbidden. -/
def strict (ch : Nat → List Nat) : Rules := ⟨Next ch, Spine ch [], Chain ch, fun H => H = []⟩

theorem Base.mono {ch ch' : Nat → List Nat} (hc : ∀ b, ∀ c ∈ ch b, c ∈ ch' b) {H : List Mtx} (h : Base ch H) :
    Base ch' H := by
  rcases h with h | ⟨b, H', e, h⟩
  · exact .inl h
  · exact .inr ⟨b, H', e, h.mono hc⟩

theorem Chain.mono {ch ch' : Nat → List Nat} (hc : ∀ b, ∀ c ∈ ch b, c ∈ ch' b) {H : List Mtx} {y : Nat}
    (h : Chain ch H y) : Chain ch' H y := by
  induction h with
  | first h1 h2 => exact .first (h1.mono hc) h2
  | down _ h ih => exact .down ih (hc _ _ h)

theorem Next.mono {ch ch' : Nat → List Nat} (hc : ∀ b, ∀ c ∈ ch b, c ∈ ch' b) {H : List Mtx} {m : Mtx}
    (h : Next ch H m) : Next ch' H m := by
  cases h with
  | first h1 h2 => exact .first (h1.mono hc) h2
  | detach h1 h2 => exact .detach (h1.mono hc) (hc _ _ h2)
  | subs h => exact .subs (h.mono hc)
  | kids h => exact .kids (h.mono hc)
  | queue => exact .queue

theorem fits_strict (ch : Nat → List Nat) : Fits (strict ch) ch := by
  refine ⟨?_, ?_, ?_, fun _ _ h => .subs h, fun _ _ h => .kids h, fun _ _ h c hc => .down h hc,
    fun _ _ h c hc => .detach h hc, fun _ _ h c hc => .down h hc⟩
  · intro H h; rw [show H = [] from h]; exact .first (.inl rfl) (List.not_mem_nil)
  · intro H h; rw [show H = [] from h]; exact .queue
  · intro H h; rw [show H = [] from h]; exact .root

theorem opOk_nil (ch : Nat → List Nat) (op : Op) : OpOk (strict ch) [] op := by
  have h : ∀ m, Next ch [] m := fun m => .first (.inl rfl) List.not_mem_nil
  cases op with
  | createProvider b => exact ⟨h _, h _, h _⟩
  | createConsumer b => exact ⟨h _, h _, h _⟩
  | detach b => exact ⟨h _, .first (.inl rfl) List.not_mem_nil⟩
  | start => exact ⟨rfl, h _⟩
  | _ => exact h _

/-- Whatever is not forbidden keeps to the rules. -/
theorem opOk_callback {σ : St} {b : Nat} {H : List Mtx} {k : List Instr}
    (hg : Good (strict σ.children) H (subLoop b :: k)) {op : Op} (ha : ¬ Forbidden σ b op) :
    OpOk (strict σ.children) H op := by
  obtain ⟨⟨H', rfl, h1⟩, _⟩ := hg
  have hbase : Base σ.children (Mtx.subs b :: H') := .inr ⟨b, H', rfl, h1⟩
  have hsub : ∀ c, ¬ c = b → Mtx.subs c ∉ Mtx.subs b :: H' := by
    intro c hc hm
    rcases List.mem_cons.1 hm with e | hm
    · cases e; exact hc rfl
    · rcases h1.only _ hm with e | ⟨a, e, _⟩ <;> cases e
  have hkid : ∀ c, ¬ Below σ c b → Mtx.kids c ∉ Mtx.subs b :: H' := by
    intro c hc hm
    rcases List.mem_cons.1 hm with e | hm
    · cases e
    · rcases h1.only _ hm with e | ⟨a, e, ha⟩
      · cases e
      · cases e; exact hc ha
  have hother : ∀ m, (∀ c, m ≠ Mtx.subs c) → (∀ c, m ≠ Mtx.kids c) → m ≠ Mtx.notifier → m ∉ Mtx.subs b :: H' := by
    intro m e1 e2 e3 hm
    rcases List.mem_cons.1 hm with e | hm
    · exact e1 _ e
    · rcases h1.only _ hm with e | ⟨a, e, _⟩
      · exact e3 e
      · exact e2 _ e
  have o : ∀ m, (∀ c, m ≠ Mtx.subs c) → (∀ c, m ≠ Mtx.kids c) → m ≠ Mtx.notifier →
      (strict σ.children).lock (Mtx.subs b :: H') m := fun m a b c => .first hbase (hother m a b c)
  have op' := fun c => o (Mtx.pubs c) (by intros; simp) (by intros; simp) (by simp)
  cases op with
  | publish => exact o _ (by intros; simp) (by intros; simp) (by simp)
  | createPub c => exact op' c
  | deletePub c => exact op' c
  | containsPub c => exact op' c
  | createSub c => exact .first hbase (hsub c ha)
  | deleteSub c => exact .first hbase (hsub c ha)
  | containsSub c => exact .first hbase (hsub c ha)
  | createProvider c =>
    exact ⟨.first hbase (hsub c ha), op' c, o _ (by intros; simp) (by intros; simp) (by simp)⟩
  | createConsumer c =>
    exact ⟨op' c, .first hbase (hsub c ha), o _ (by intros; simp) (by intros; simp) (by simp)⟩
  | createChild c => exact .first hbase (hkid c ha)
  | getChild c => exact .first hbase (hkid c ha)
  | detach c => exact ⟨.first hbase (hkid c ha), .first hbase (hkid c ha)⟩
  | start => exact absurd trivial ha

theorem PoliteReach.inv {σ : St} (h : PoliteReach σ) : Inv (strict σ.children) σ := by
  induction h with
  | start => exact Inv.start _
  | step _ hp hs ih =>
    refine (ih.step (fits_strict _) (opOk_nil _) hs ?_).mono ?_
    · intro t b k ops H e ht hg op hop
      subst e
      exact opOk_callback hg (hp b k ht op hop)
    · have hc := step_grows hs
      exact ⟨fun _ _ h => h.mono hc, fun _ _ h => h.mono hc, fun _ _ h => h.mono hc, fun _ h => h⟩

/-! ## Blocking -/

theorem exists_maximal {α : Type} (f : α → Nat) (l : List α) (hne : l ≠ []) : ∃ x ∈ l, ∀ y ∈ l, f y ≤ f x := by
  induction l with
  | nil => exact absurd rfl hne
  | cons a l ih =>
    by_cases hl : l = []
    · subst hl
      exact ⟨a, List.mem_cons_self, fun y hy => by rw [List.mem_singleton] at hy; subst hy; exact Nat.le_refl _⟩
    · obtain ⟨x, hx, hmax⟩ := ih hl
      by_cases hax : f x ≤ f a
      · refine ⟨a, List.mem_cons_self, fun y hy => ?_⟩
        rcases List.mem_cons.1 hy with rfl | hy
        · exact Nat.le_refl _
        · exact Nat.le_trans (hmax y hy) hax
      · refine ⟨x, List.mem_cons_of_mem _ hx, fun y hy => ?_⟩
        rcases List.mem_cons.1 hy with rfl | hy
        · omega
        · exact hmax y hy

/-- A thread with something to do can take a step unless it wants a mutex that is owned. -/
theorem canStep_or_waits {R : Rules} {σ : St} (hi : Inv R σ) {t : Nat} (hu : Unfinished σ t) :
    CanStep σ t ∨ ∃ m t', Waits σ t m t' := by
  obtain ⟨i, k, ht⟩ := hu
  by_cases hl : ∃ m, i = lock m
  · obtain ⟨m, rfl⟩ := hl
    cases ho : σ.owner m with
    | none => exact .inl ⟨.yes, by simp [Locks.step, ht, ho]⟩
    | some t' => exact .inr ⟨m, t', ⟨k, ht⟩, ho⟩
  · left
    cases i with
    | lock m => exact absurd ⟨m, rfl⟩ hl
    | unlock m =>
      obtain ⟨H, ⟨H', rfl, _⟩, _, h3⟩ := hi.good _ _ ht
      have ho := (h3 m).2 List.mem_cons_self
      exact ⟨.yes, by simp [Locks.step, ht, ho]⟩
    | visit b => exact ⟨.yes, by simp [Locks.step, ht, Locks.expand]⟩
    | subLoop b => exact ⟨.no, by simp [Locks.step, ht, Locks.expand]⟩
    | kidLoop b => exact ⟨.yes, by simp [Locks.step, ht, Locks.expand]⟩
    | detachLoop b => exact ⟨.yes, by simp [Locks.step, ht, Locks.expand]⟩
    | addChild b => exact ⟨.no, by simp [Locks.step, ht, Locks.expand]⟩
    | runTop => exact ⟨.yes, by simp [Locks.step, ht, Locks.expand]⟩
    | runWait => exact ⟨.yes, by simp [Locks.step, ht, Locks.expand]⟩
    | runWoken => exact ⟨.yes, by simp [Locks.step, ht, Locks.expand]⟩
    | asleep => exact ⟨.yes, by simp [Locks.step, ht, Locks.expand]⟩
    | batchLoop => exact ⟨.yes, by simp [Locks.step, ht, Locks.expand]⟩

/-- The owner of a mutex is at work. -/
theorem owner_unfinished {R : Rules} {σ : St} (hi : Inv R σ) {m : Mtx} {t : Nat}
    (h : σ.owner m = some t) : Unfinished σ t := by
  have hlt := hi.owned m t h
  obtain ⟨H, h1, _, h3⟩ := hi.good t _ (List.getElem?_eq_getElem hlt)
  have hm := (h3 m).1 h
  cases hk : σ.threads[t] with
  | nil => rw [hk] at h1; rw [show H = [] from h1] at hm; cases hm
  | cons i k => exact ⟨i, k, by rw [List.getElem?_eq_getElem hlt, hk]⟩

/-- The part of a `Detach` chain below the base. -/
theorem Chain.split {σ : St} (hy : TreeOk σ) {H : List Mtx} {y : Nat} (h : Chain σ.children H y) :
    ∃ D B, H = D ++ B ∧ Base σ.children B ∧ kids y ∈ D ∧ kids y ∉ B ∧ (∀ m ∈ D, ∃ x, m = kids x ∧ x ≤ y) := by
  induction h with
  | @first H y h1 h2 =>
    refine ⟨[kids y], H, rfl, h1, List.mem_singleton.2 rfl, h2, ?_⟩
    intro m hm
    exact ⟨y, List.mem_singleton.1 hm, Nat.le_refl _⟩
  | @down H x y _ hm ih =>
    obtain ⟨D, B, rfl, h1, h2, h3, h4⟩ := ih
    refine ⟨kids y :: D, B, rfl, h1, List.mem_cons_self, ?_, ?_⟩
    · intro hB
      rcases h1 with rfl | ⟨b, H', rfl, hs⟩
      · cases hB
      · rcases List.mem_cons.1 hB with e | hB
        · cases e
        · exact h3 (List.mem_cons_of_mem _ (hs.parent hy hB hm))
    · intro m hmm
      rcases List.mem_cons.1 hmm with rfl | hmm
      · exact ⟨y, rfl, Nat.le_refl _⟩
      · obtain ⟨x', e, hx⟩ := h4 m hmm
        have := (hy.young _ _ hm).1
        exact ⟨x', e, by omega⟩

theorem Base.notifier {ch : Nat → List Nat} {H : List Mtx} (h : Base ch H) : H = [] ∨ notifier ∈ H := by
  rcases h with h | ⟨b, H', rfl, hs⟩
  · exact .inl h
  · exact .inr (List.mem_cons_of_mem _ hs.notifier)

/-- A thread that is not distributing and owns something is inside `Detach`. -/
theorem Next.outside {σ : St} (hy : TreeOk σ) {H : List Mtx} {m : Mtx} (h : Next σ.children H m) (hn : notifier ∉ H)
    (hne : H ≠ []) :
    ∃ y z, m = Mtx.kids z ∧ z ∈ σ.children y ∧ Mtx.kids y ∈ H ∧ ∀ m' ∈ H, ∃ x, m' = Mtx.kids x ∧ x < z := by
  cases h with
  | first h1 h2 => exact h1.notifier.elim (fun h => absurd h hne) (fun h => absurd h hn)
  | @detach H y z h1 h2 =>
    obtain ⟨D, B, rfl, hb, h3, _, h4⟩ := h1.split hy
    have hB : B = [] := by
      rcases hb.notifier with h | h
      · exact h
      · exact absurd (List.mem_append_right _ h) hn
    subst hB
    refine ⟨y, z, rfl, h2, List.mem_append_left _ h3, fun m' hm' => ?_⟩
    rw [List.append_nil] at hm'
    obtain ⟨x, e, hx⟩ := h4 m' hm'
    have := (hy.young _ _ h2).1
    exact ⟨x, e, by omega⟩
  | subs h => exact absurd h.notifier hn
  | kids h => exact absurd h.notifier hn
  | queue => exact absurd (List.mem_singleton.2 rfl) hn

/-- Nobody locks a mutex they own. -/
theorem Next.fresh {σ : St} (hy : TreeOk σ) {H : List Mtx} {m : Mtx} (h : Next σ.children H m) : m ∉ H := by
  cases h with
  | first _ h => exact h
  | @detach H y z h1 h2 =>
    obtain ⟨D, B, rfl, hb, h3, h5, h4⟩ := h1.split hy
    have hlt := (hy.young _ _ h2).1
    intro hm
    rcases List.mem_append.1 hm with hm | hm
    · obtain ⟨x, e, hx⟩ := h4 _ hm
      cases e
      omega
    · rcases hb with rfl | ⟨b, H', rfl, hs⟩
      · cases hm
      · rcases List.mem_cons.1 hm with e | hm
        · cases e
        · exact h5 (List.mem_cons_of_mem _ (hs.parent hy hm h2))
  | subs h => intro hm; rcases h.only _ hm with e | ⟨a, e, _⟩ <;> cases e
  | kids h =>
    intro hm
    rcases h.only _ hm with e | ⟨a, e, ha⟩
    · cases e
    · cases e
      have := ha.lt hy
      omega
  | queue => intro hm; cases List.mem_singleton.1 hm

/-- A distributing thread that owns the child mutex of a bus but not that of its parent is inside `Detach`. -/
theorem Next.gap {σ : St} (hy : TreeOk σ) {H : List Mtx} {m : Mtx} (h : Next σ.children H m) {y z : Nat}
    (hz : Mtx.kids z ∈ H) (hm : z ∈ σ.children y) (hny : Mtx.kids y ∉ H) : ∃ w, m = Mtx.kids w ∧ z < w := by
  have hbase : ∀ B, Base σ.children B → Mtx.kids z ∈ B → Mtx.kids y ∈ B := by
    intro B hB hzB
    rcases hB with rfl | ⟨b, H', rfl, hs⟩
    · cases hzB
    · rcases List.mem_cons.1 hzB with e | hzB
      · cases e
      · exact List.mem_cons_of_mem _ (hs.parent hy hzB hm)
  cases h with
  | first h1 _ => exact absurd (hbase _ h1 hz) hny
  | @detach H y' w h1 h2 =>
    obtain ⟨D, B, rfl, hb, h3, h5, h4⟩ := h1.split hy
    rcases List.mem_append.1 hz with hz | hz
    · obtain ⟨x, e, hx⟩ := h4 _ hz
      cases e
      have := (hy.young _ _ h2).1
      exact ⟨w, rfl, by omega⟩
    · exact absurd (List.mem_append_right _ (hbase _ hb hz)) hny
  | subs h => exact absurd (h.parent hy hz hm) hny
  | kids h => exact absurd (h.parent hy hz hm) hny
  | queue => cases List.mem_singleton.1 hz

/-- The number of the bus a thread waits for in `Detach`. -/
def wanted (σ : St) (t : Nat) : Nat :=
  match σ.threads[t]? with
  | some (lock (kids z) :: _) => z
  | _ => 0

/-- What is known of a waiting thread. -/
theorem waits_next {σ : St} (hi : Inv (strict σ.children) σ) {t t' : Nat} {m : Mtx} (h : Waits σ t m t') :
    ∃ H, Next σ.children H m ∧ ∀ m', σ.owner m' = some t ↔ m' ∈ H := by
  obtain ⟨⟨k, ht⟩, _⟩ := h
  obtain ⟨H, h1, _, h3⟩ := hi.good t _ ht
  exact ⟨H, h1.1, h3⟩

/-- A waiting thread that owns a mutex but not the notifier mutex. -/
theorem waits_outside {σ : St} (hy : TreeOk σ) (hi : Inv (strict σ.children) σ) {t t' : Nat} {m m₀ : Mtx}
    (h : Waits σ t m t') (hn : σ.owner notifier ≠ some t) (ho : σ.owner m₀ = some t) :
    ∃ x y z, m = kids z ∧ z ∈ σ.children y ∧ σ.owner (kids y) = some t ∧ m₀ = kids x ∧ x < z ∧ wanted σ t = z := by
  obtain ⟨H, h1, h3⟩ := waits_next hi h
  obtain ⟨y, z, rfl, hz, hyH, hall⟩ := h1.outside hy (fun hm => hn ((h3 _).2 hm))
    (List.ne_nil_of_mem ((h3 _).1 ho))
  obtain ⟨x, e, hx⟩ := hall m₀ ((h3 _).1 ho)
  obtain ⟨⟨k, ht⟩, _⟩ := h
  exact ⟨x, y, z, rfl, hz, (h3 _).2 hyH, e, hx, by rw [wanted, ht]⟩

/-- Threads never wait for each other in a circle. -/
theorem no_circle {σ : St} (hy : TreeOk σ) (hi : Inv (strict σ.children) σ) (T : List Nat) (hne : T ≠ [])
    (hT : ∀ t ∈ T, ∃ m, ∃ t' ∈ T, Waits σ t m t') : False := by
  -- a waiting thread never waits for itself
  have hself : ∀ t m t', Waits σ t m t' → t' ≠ t := by
    rintro t m t' hw rfl
    obtain ⟨H, h1, h3⟩ := waits_next hi hw
    exact h1.fresh hy ((h3 m).1 hw.2)
  -- threads of the circle outside a distribution that own something
  let P : Nat → Prop := fun t => t ∈ T ∧ σ.owner notifier ≠ some t ∧ ∃ m₀, σ.owner m₀ = some t
  have hex : ∃ t, P t := by
    obtain ⟨t, ht⟩ := List.exists_mem_of_ne_nil T hne
    obtain ⟨m, t', ht', hw⟩ := hT t ht
    by_cases hd : σ.owner notifier = some t'
    · obtain ⟨m', t'', ht'', hw'⟩ := hT t' ht'
      refine ⟨t'', ht'', fun e => ?_, m', hw'.2⟩
      rw [hd] at e
      exact hself _ _ _ hw' (Option.some.inj e).symm
    · exact ⟨t', ht', hd, m, hw.2⟩
  obtain ⟨t, ⟨htT, htn, m₀, hm₀⟩, hmax⟩ : ∃ t, P t ∧ ∀ t', P t' → wanted σ t' ≤ wanted σ t := by
    open Classical in
    have hl : T.filter (fun t => decide (P t)) ≠ [] := by
      obtain ⟨t, ht⟩ := hex
      exact List.ne_nil_of_mem (List.mem_filter.2 ⟨ht.1, decide_eq_true ht⟩)
    obtain ⟨t, ht, hm⟩ := exists_maximal (wanted σ) _ hl
    refine ⟨t, of_decide_eq_true (List.mem_filter.1 ht).2, fun t' ht' => hm t' ?_⟩
    exact List.mem_filter.2 ⟨ht'.1, decide_eq_true ht'⟩
  obtain ⟨m, t', ht', hw⟩ := hT t htT
  obtain ⟨x, y, z, rfl, hz, hyo, _, _, hwant⟩ := waits_outside hy hi hw htn hm₀
  obtain ⟨m', t'', ht'', hw'⟩ := hT t' ht'
  by_cases hd : σ.owner notifier = some t'
  · obtain ⟨H, h1, h3⟩ := waits_next hi hw'
    obtain ⟨w, rfl, hlt⟩ := h1.gap hy ((h3 _).1 hw.2) hz (fun hm => by
      rw [(h3 _).2 hm] at hyo
      exact hself _ _ _ hw (Option.some.inj hyo))
    have hn'' : σ.owner notifier ≠ some t'' := by
      rw [hd]
      exact fun e => hself _ _ _ hw' (Option.some.inj e).symm
    obtain ⟨m'', t₃, _, hw''⟩ := hT t'' ht''
    obtain ⟨x', _, z', _, _, _, e, hx', hwant'⟩ := waits_outside hy hi hw'' hn'' hw'.2
    cases e
    have := hmax t'' ⟨ht'', hn'', _, hw'.2⟩
    omega
  · obtain ⟨x', _, z', _, _, _, e, hx', hwant'⟩ := waits_outside hy hi hw' hd hw.2
    cases e
    have := hmax t' ⟨ht', hd, _, hw.2⟩
    omega

/-! ## Code that cannot be passed by the owner of a mutex -/

/-- The instruction unlocks `m`, or does so unless it locks `m` first. -/
def releases (m : Mtx) : Instr → Bool
  | unlock m' => decide (m' = m)
  | runTop => decide (notifier = m)
  | runWait => decide (notifier = m)
  | runWoken => decide (notifier = m)
  | batchLoop => decide (notifier = m)
  | _ => false

/-- The code locks `m` before it unlocks `m`. -/
def Shut (m : Mtx) : List Instr → Prop
  | [] => False
  | i :: k => i = lock m ∨ (releases m i = false ∧ Shut m k)

theorem Shut.skip {m : Mtx} {k : List Instr} (h : Shut m k) {i : Instr} (hi : releases m i = false) : Shut m (i :: k) :=
  .inr ⟨hi, h⟩

/-- A balanced lock and unlock around code that does not release. -/
theorem Shut.around {m : Mtx} {k : List Instr} (h : Shut m k) (m' : Mtx) {is : List Instr}
    (his : ∀ i ∈ is, releases m i = false) : Shut m (lock m' :: is ++ unlock m' :: k) := by
  by_cases e : m' = m
  · subst e; exact .inl rfl
  · refine .inr ⟨rfl, ?_⟩
    have hk : Shut m (unlock m' :: k) := h.skip (by simp [releases, e])
    induction is with
    | nil => exact hk
    | cons i is ih => exact .inr ⟨his i List.mem_cons_self, ih (fun j hj => his j (List.mem_cons_of_mem _ hj))⟩

theorem Shut.section' {m m' : Mtx} {k : List Instr} (h : Shut m k) : Shut m (section' m' ++ k) :=
  h.around m' (is := []) (fun _ h => by cases h)

theorem Shut.code {m : Mtx} {k : List Instr} (h : Shut m k) (op : Op) : Shut m (Locks.code op ++ k) := by
  cases op with
  | createProvider b =>
    simp only [Locks.code, List.append_assoc]
    exact h.section'.section'.section'
  | createConsumer b =>
    simp only [Locks.code, List.append_assoc]
    exact h.section'.section'.section'
  | createChild b => exact h.around (kids b) (is := [addChild b]) (by simp [releases])
  | detach b => exact h.around (kids b) (is := [detachLoop b]) (by simp [releases])
  | start =>
    by_cases e : notifier = m
    · subst e; exact .inl rfl
    · exact (h.skip (by simp [releases, e])).skip rfl
  | publish => exact h.section'
  | createSub b => exact h.section'
  | deleteSub b => exact h.section'
  | containsSub b => exact h.section'
  | createPub b => exact h.section'
  | deletePub b => exact h.section'
  | containsPub b => exact h.section'
  | getChild b => exact h.section'

theorem Shut.codes {m : Mtx} {k : List Instr} (h : Shut m k) (ops : List Op) :
    Shut m (ops.flatMap Locks.code ++ k) := by
  induction ops with
  | nil => exact h
  | cons op ops ih => rw [List.flatMap_cons, List.append_assoc]; exact ih.code op

theorem Shut.visits {m : Mtx} {k : List Instr} (h : Shut m k) (cs : List Nat) : Shut m (cs.map visit ++ k) := by
  induction cs with
  | nil => exact h
  | cons c cs ih => exact ih.skip rfl

/-- An API call that locks `m` at some point shuts whatever follows. -/
def locksIn (m : Mtx) (op : Op) : Prop := Shut m (Locks.code op)

theorem Shut.append {m : Mtx} {k : List Instr} (h : Shut m k) (k' : List Instr) : Shut m (k ++ k') := by
  induction k with
  | nil => exact absurd h id
  | cons i k ih =>
    rcases h with h | ⟨h1, h2⟩
    · exact .inl h
    · exact .inr ⟨h1, ih h2⟩

theorem Shut.of_mem {m : Mtx} {ops : List Op} {op : Op} (hop : op ∈ ops) (h : Shut m (Locks.code op)) :
    Shut m (ops.flatMap Locks.code) := by
  induction ops with
  | nil => cases hop
  | cons o ops ih =>
    rw [List.flatMap_cons]
    rcases List.mem_cons.1 hop with rfl | hop
    · exact h.append _
    · exact (ih hop).code o

/-- Tests and loops keep code shut. -/
theorem Shut.expand {m : Mtx} {ch : Nat → List Nat} {i : Instr} {k r k' : List Instr} {c : Choice}
    (h : Shut m (i :: k)) (he : expand ch i (k ++ r) c = some k') : ∃ k₁, k' = k₁ ++ r ∧ Shut m k₁ := by
  rcases h with rfl | ⟨h1, h2⟩
  · simp [Locks.expand] at he
  · generalize hkr : k ++ r = kr at he
    unfold Locks.expand at he
    split at he <;> simp only [Option.some.injEq, reduceCtorEq] at he <;> subst he <;> subst hkr
    case h_1 b =>
      refine ⟨lock (subs b) :: subLoop b :: unlock (subs b) :: lock (kids b) :: kidLoop b :: unlock (kids b) :: k,
        rfl, ?_⟩
      exact (h2.around (kids b) (is := [kidLoop b]) (by simp [releases])).around (subs b) (is := [subLoop b])
        (by simp [releases])
    case h_2 => exact ⟨_, rfl, h2⟩
    case h_3 => exact ⟨_, rfl, h2⟩
    case h_4 b ops =>
      refine ⟨ops.flatMap Locks.code ++ subLoop b :: k, by simp, ?_⟩
      exact Shut.codes (h2.skip rfl) ops
    case h_5 b => exact ⟨(ch b).map visit ++ k, by simp, h2.visits _⟩
    case h_6 b =>
      refine ⟨(ch b).flatMap (fun c => Locks.code (.detach c)) ++ k, by simp, ?_⟩
      have := Shut.codes h2 ((ch b).map Op.detach)
      rwa [List.flatMap_map] at this
    case h_7 => exact ⟨_, rfl, h2⟩
    case h_8 => exact ⟨_, rfl, (h2.skip (i := runWait) h1).section'⟩
    case h_9 => exact ⟨unlock notifier :: k, rfl, h2.skip h1⟩
    case h_10 =>
      refine ⟨unlock notifier :: asleep :: lock notifier :: lock queue :: unlock queue :: runWait :: k, rfl,
        Or.inr ⟨h1, Or.inr ⟨rfl, Or.inr ⟨rfl, ?_⟩⟩⟩⟩
      exact (h2.skip (i := runWait) h1).section'
    case h_11 => exact ⟨runWoken :: k, rfl, h2.skip h1⟩
    case h_12 => exact ⟨_, rfl, (h2.skip (i := batchLoop) h1).section'⟩
    case h_13 => exact ⟨unlock notifier :: k, rfl, h2.skip h1⟩
    case h_14 => exact ⟨_, rfl, h2⟩
    case h_15 => exact ⟨_, rfl, (h2.skip (i := batchLoop) h1).skip rfl⟩
    case h_16 => exact ⟨runTop :: k, rfl, h2.skip h1⟩

/-- Thread `t` owns `m` and its code up to `r` is shut. -/
def Trapped (m : Mtx) (t : Nat) (r : List Instr) (σ : St) : Prop :=
  σ.owner m = some t ∧ ∃ k, σ.threads[t]? = some (k ++ r) ∧ Shut m k

/-- There is no way out. -/
theorem Trapped.step {m : Mtx} {t : Nat} {r : List Instr} {σ σ' : St} {a : Act} (h : Trapped m t r σ)
    (hs : Locks.step σ a = some σ') : Trapped m t r σ' := by
  obtain ⟨ho, k, ht, hk⟩ := h
  obtain ⟨hlt, _⟩ := List.getElem?_eq_some_iff.1 ht
  cases a with
  | spawn ops =>
    simp only [Locks.step, Option.some.injEq] at hs
    subst hs
    exact ⟨ho, k, by simp only [List.getElem?_append_left hlt, ht], hk⟩
  | step t' c =>
    simp only [Locks.step] at hs
    by_cases e : t' = t
    · subst e
      cases k with
      | nil => exact absurd hk id
      | cons i k =>
        rw [List.cons_append] at ht
        rw [ht] at hs
        have hset : ∀ k', (σ.threads.set t' k')[t']? = some k' := fun k' => List.getElem?_set_self hlt
        split at hs
        · rename_i m' k' e'
          cases e'
          split at hs
          · rename_i hno
            cases hs
            rcases hk with e | ⟨_, hk⟩
            · cases e; rw [ho] at hno; cases hno
            · have hne : m ≠ m' := by rintro rfl; rw [ho] at hno; cases hno
              refine ⟨?_, k, hset _, hk⟩
              simp [St.own, St.goto, hne, ho]
          · cases hs
        · rename_i m' k' e'
          cases e'
          split at hs
          · cases hs
            rcases hk with e | ⟨hr, hk⟩
            · cases e
            · simp only [releases, decide_eq_false_iff_not] at hr
              refine ⟨?_, k, hset _, hk⟩
              simp only [St.own, St.goto]
              rw [if_neg (fun e => hr e.symm)]
              exact ho
          · cases hs
        · rename_i i' k' _ _ e'
          cases e'
          split at hs
          · split at hs
            · cases hs
              rcases hk with e | ⟨_, hk⟩
              · cases e
              · exact ⟨ho, k, hset _, hk⟩
            · cases hs
          · cases he : Locks.expand σ.children i (k ++ r) c with
            | none => rw [he] at hs; cases hs
            | some k' =>
              rw [he] at hs
              simp only [Option.map_some, Option.some.injEq] at hs
              subst hs
              obtain ⟨k₁, rfl, hk₁⟩ := hk.expand he
              exact ⟨ho, k₁, hset _, hk₁⟩
        · cases hs
    · have hset : ∀ k', (σ.threads.set t' k')[t]? = σ.threads[t]? := fun k' => List.getElem?_set_ne e
      split at hs
      · rename_i m' k' ht'
        split at hs
        · rename_i hno
          cases hs
          have hne : m ≠ m' := by rintro rfl; rw [ho] at hno; cases hno
          refine ⟨?_, k, (hset _).trans ht, hk⟩
          simp [St.own, St.goto, hne, ho]
        · cases hs
      · rename_i m' k' ht'
        split at hs
        · rename_i how
          cases hs
          have hne : m ≠ m' := by rintro rfl; rw [ho] at how; exact e (Option.some.inj how).symm
          refine ⟨?_, k, (hset _).trans ht, hk⟩
          simp [St.own, St.goto, hne, ho]
        · cases hs
      · rename_i i' k' _ _ ht'
        split at hs
        · split at hs
          · cases hs
            exact ⟨ho, k, (hset _).trans ht, hk⟩
          · cases hs
        · cases he : Locks.expand σ.children i' k' c with
          | none => rw [he] at hs; cases hs
          | some k₁ =>
            rw [he] at hs
            simp only [Option.map_some, Option.some.injEq] at hs
            subst hs
            exact ⟨ho, k, (hset _).trans ht, hk⟩
      · cases hs

theorem Trapped.later {m : Mtx} {t : Nat} {r : List Instr} {σ σ' : St} (h : Trapped m t r σ) (hl : Later σ σ') :
    Trapped m t r σ' := by
  induction hl with
  | refl => exact h
  | step _ hs ih => exact ih.step hs

/-- A forbidden call locks a mutex that the thread owns while it is in the callback. -/
theorem forbidden_shut {σ : St} (hr : Reach σ) {t b : Nat} {k : List Instr}
    (ht : σ.threads[t]? = some (subLoop b :: k)) {op : Op} (hf : Forbidden σ b op) :
    ∃ m, σ.owner m = some t ∧ Shut m (Locks.code op) := by
  obtain ⟨H, ⟨⟨H', rfl, B, hs⟩, _⟩, _, h3⟩ := hr.inv.good t _ ht
  have hsub : σ.owner (subs b) = some t := (h3 _).2 List.mem_cons_self
  have hkid : ∀ a, Below σ a b → σ.owner (kids a) = some t := fun a ha =>
    (h3 _).2 (List.mem_cons_of_mem _ (hs.above hr.tree ha))
  have hnot : σ.owner notifier = some t := (h3 _).2 (List.mem_cons_of_mem _ hs.notifier)
  cases op with
  | createSub c => cases hf; exact ⟨_, hsub, .inl rfl⟩
  | deleteSub c => cases hf; exact ⟨_, hsub, .inl rfl⟩
  | containsSub c => cases hf; exact ⟨_, hsub, .inl rfl⟩
  | createProvider c => cases hf; exact ⟨_, hsub, .inl rfl⟩
  | createConsumer c =>
    cases hf
    exact ⟨_, hsub, .inr ⟨by simp [releases], .inr ⟨by simp [releases], .inl rfl⟩⟩⟩
  | createChild c => exact ⟨_, hkid c hf, .inl rfl⟩
  | getChild c => exact ⟨_, hkid c hf, .inl rfl⟩
  | detach c => exact ⟨_, hkid c hf, .inl rfl⟩
  | start => exact ⟨_, hnot, .inl rfl⟩
  | publish => exact absurd hf id
  | createPub c => exact absurd hf id
  | deletePub c => exact absurd hf id
  | containsPub c => exact absurd hf id

theorem stuck_step {σ σ' : St} {t : Nat} {m : Mtx} {a : Act} {k : List Instr}
    (h : σ.threads[t]? = some (lock m :: k) ∧ σ.owner m = some t) (hs : Locks.step σ a = some σ') :
    σ'.threads[t]? = some (lock m :: k) ∧ σ'.owner m = some t := by
  obtain ⟨ht, ho⟩ := h
  have key : Trapped m t k σ := ⟨ho, [lock m], ht, .inl rfl⟩
  refine ⟨?_, (key.step hs).1⟩
  obtain ⟨hlt, _⟩ := List.getElem?_eq_some_iff.1 ht
  cases a with
  | spawn ops =>
    simp only [Locks.step, Option.some.injEq] at hs
    subst hs
    simp only [List.getElem?_append_left hlt, ht]
  | step t' c =>
    simp only [Locks.step] at hs
    by_cases e : t' = t
    · subst e
      rw [ht] at hs
      simp [ho] at hs
    · have hset : ∀ k', (σ.threads.set t' k')[t]? = σ.threads[t]? := fun k' => List.getElem?_set_ne e
      split at hs
      · split at hs
        · cases hs; exact (hset _).trans ht
        · cases hs
      · split at hs
        · cases hs; exact (hset _).trans ht
        · cases hs
      · rename_i i' k' _ _ ht'
        split at hs
        · split at hs
          · cases hs; exact (hset _).trans ht
          · cases hs
        · cases he : Locks.expand σ.children i' k' c with
          | none => rw [he] at hs; cases hs
          | some k₁ =>
            rw [he] at hs
            cases hs
            exact (hset _).trans ht
      · cases hs

theorem stuck_later {σ σ' : St} {t : Nat} {m : Mtx} {k : List Instr} (hl : Later σ σ')
    (h : σ.threads[t]? = some (lock m :: k) ∧ σ.owner m = some t) :
    (σ'.threads[t]? = some (lock m :: k) ∧ σ'.owner m = some t) ∧ ¬ CanStep σ' t := by
  have key : σ'.threads[t]? = some (lock m :: k) ∧ σ'.owner m = some t := by
    induction hl with
    | refl => exact h
    | step _ hs ih => exact stuck_step ih hs
  refine ⟨key, fun ⟨c, hc⟩ => ?_⟩
  simp [Locks.step, key.1, key.2] at hc

/-- Execute a sequence of events. -/
def exec (σ : St) : List Act → Option St
  | [] => some σ
  | a :: as => match Locks.step σ a with
    | none => none
    | some σ' => exec σ' as

theorem exec_reach {as : List Act} : ∀ {σ σ' : St}, Reach σ → exec σ as = some σ' → Reach σ' := by
  induction as with
  | nil => intro σ σ' h e; cases e; exact h
  | cons a as ih =>
    intro σ σ' h e
    simp only [exec] at e
    split at e
    · cases e
    · rename_i σ₁ hs
      exact ih (h.step hs) e

theorem exec_polite {as : List Act} (hp : ∀ a ∈ as, ∀ t ops, a ≠ .step t (.callback ops)) :
    ∀ {σ σ' : St}, PoliteReach σ → exec σ as = some σ' → PoliteReach σ' := by
  induction as with
  | nil => intro σ σ' h e; cases e; exact h
  | cons a as ih =>
    intro σ σ' h e
    simp only [exec] at e
    split at e
    · cases e
    · rename_i σ₁ hs
      refine ih (fun a ha => hp a (List.mem_cons_of_mem _ ha)) (h.step ?_ hs) e
      have := hp a List.mem_cons_self
      unfold Polite
      split
      · exact absurd rfl (this _ _)
      · trivial

/-- Evaluating a run. -/
theorem exec_obs {as : List Act} {ts : List (List Instr)} (h : (exec start as).map St.threads = some ts) :
    ∃ σ, exec start as = some σ ∧ σ.threads = ts := by
  cases he : exec start as with
  | none => rw [he] at h; cases h
  | some σ => rw [he] at h; exact ⟨σ, rfl, Option.some.inj h⟩

end LP.Locks
