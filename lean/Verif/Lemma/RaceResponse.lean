import Verif.Lemma.Race
/-!
# The answer of a `Request` that does not give up waiting
-/
namespace LP.Race
open Instr Locks.Mtx
open Locks (Mtx)

/-- An instruction that has nothing to do with responses, but may wait for one of a call that was made. -/
def Plain (nf : Nat) : Instr → Prop
  | .read (.response _) => False
  | .write (.response _) _ => False
  | .write _ e => ∀ n, e ≠ .answered n
  | atom _ => False
  | wait n => n < nf
  | _ => True

theorem Plain.mono {a b : Nat} (h : a ≤ b) {i : Instr} (hp : Plain a i) : Plain b i := by
  cases i with
  | wait n => exact Nat.lt_of_lt_of_le (show n < a from hp) h
  | read l => cases l <;> exact hp
  | write l e => cases l <;> exact hp
  | _ => exact hp

/-- All instructions are. -/
def Plains (nf : Nat) (k : List Instr) : Prop := ∀ i ∈ k, Plain nf i

theorem Plains.mono {a b : Nat} (h : a ≤ b) {k : List Instr} (hp : Plains a k) : Plains b k :=
  fun i hi => (hp i hi).mono h

theorem Plains.tail {a : Nat} {i : Instr} {k : List Instr} (hp : Plains a (i :: k)) : Plains a k :=
  fun j hj => hp j (List.mem_cons_of_mem _ hj)

theorem plains_nil {a : Nat} : Plains a [] := fun _ h => by cases h

theorem plains_cons {a : Nat} {i : Instr} {k : List Instr} : Plains a (i :: k) ↔ Plain a i ∧ Plains a k := by
  simp [Plains]

theorem plains_append {a : Nat} {k l : List Instr} : Plains a (k ++ l) ↔ Plains a k ∧ Plains a l := by
  simp only [Plains, List.mem_append]
  exact ⟨fun h => ⟨fun i hi => h i (.inl hi), fun i hi => h i (.inr hi)⟩, fun h i hi => hi.elim (h.1 i) (h.2 i)⟩

theorem plains_flatMap {a : Nat} {α : Type} {f : α → List Instr} {l : List α} (h : ∀ x, Plains a (f x)) :
    Plains a (l.flatMap f) := by
  intro i hi
  obtain ⟨x, _, hx⟩ := List.mem_flatMap.1 hi
  exact h x i hx

theorem plains_calls {a : Nat} {ops : List Op} : Plains a (ops.map call) := by
  intro i hi
  obtain ⟨x, _, rfl⟩ := List.mem_map.1 hi
  trivial

/-- Where a thread can be. -/
inductive At (σ : St) : List Instr → Prop
  | plain {k : List Instr} : Plains σ.nf k → At σ k
  | write {n : Nat} {k : List Instr} : n < σ.nf → σ.waiting n = true → Plains σ.nf k →
      At σ (write (.response n) .nothing :: atom (.answered n) :: k)
  | atom {n : Nat} {k : List Instr} : n < σ.nf → Plains σ.nf k → At σ (atom (.answered n) :: k)
  | read {n : Nat} {k : List Instr} : n < σ.nf → σ.waiting n = false → Plains σ.nf k →
      At σ (.read (.response n) :: k)

/-- All threads are, and calls of `Request` to come are not waiting yet. -/
structure RInv (σ : St) : Prop where
  fresh : ∀ n, σ.nf ≤ n → σ.waiting n = false
  code : ∀ (t : Nat) (k : List Instr), σ.threads[t]? = some k → At σ k

@[simp] theorem apply_nf (σ : St) (e : Eff) : (σ.apply e).nf = σ.nf := by
  cases e <;> simp only [St.apply]
  split <;> rfl

theorem apply_waiting (σ : St) {e : Eff} (h : ∀ n, e ≠ .answered n) : (σ.apply e).waiting = σ.waiting := by
  cases e <;> simp only [St.apply]
  · split <;> rfl
  · exact absurd rfl (h _)

theorem plains_enter (σ : St) (op : Op) : Plains (enter σ op).1.nf (enter σ op).2 := by
  cases op <;> simp [enter, pushed, plains_cons, Plain, plains_nil]

theorem enter_nf (σ : St) (op : Op) : σ.nf ≤ (enter σ op).1.nf := by
  cases op <;> simp [enter, St.newSub, St.newPub]

theorem enter_waiting (σ : St) (op : Op) {n : Nat} (h : n ≠ σ.nf) : (enter σ op).1.waiting n = σ.waiting n := by
  cases op <;> simp [enter, St.newSub, St.newPub, upd, h]

theorem enter_fresh {σ : St} (hf : ∀ n, σ.nf ≤ n → σ.waiting n = false) (op : Op) :
    ∀ n, (enter σ op).1.nf ≤ n → (enter σ op).1.waiting n = false := by
  intro n hn
  cases op <;> simp only [enter, St.newSub, St.newPub] at hn ⊢ <;> try exact hf n hn
  simp only [upd]
  rw [if_neg (by omega)]
  exact hf n (by omega)

theorem At.same {σ τ : St} (h1 : τ.nf = σ.nf) (h2 : τ.waiting = σ.waiting) {k : List Instr} (h : At σ k) : At τ k := by
  cases h with
  | plain hp => exact .plain (by rw [h1]; exact hp)
  | write a b c => exact .write (by rw [h1]; exact a) (by rw [h2]; exact b) (by rw [h1]; exact c)
  | atom a b => exact .atom (by rw [h1]; exact a) (by rw [h1]; exact b)
  | read a b c => exact .read (by rw [h1]; exact a) (by rw [h2]; exact b) (by rw [h1]; exact c)

/-- A thread moves on, the calls of `Request` stay as they are. -/
theorem RInv.move {σ τ : St} {t : Nat} {k' : List Instr} (h : RInv σ) (hat : At σ k')
    (ht : τ.threads = σ.threads.set t k') (h1 : τ.nf = σ.nf) (h2 : τ.waiting = σ.waiting) : RInv τ := by
  refine ⟨by rw [h1, h2]; exact h.fresh, fun u c hc => ?_⟩
  rw [ht] at hc
  by_cases e : u = t
  · subst e
    by_cases hl : u < σ.threads.length
    · rw [List.getElem?_set_self hl] at hc
      cases hc
      exact hat.same h1 h2
    · rw [List.getElem?_eq_none (by simp; omega)] at hc
      cases hc
  · rw [List.getElem?_set_ne (fun e' => e e'.symm)] at hc
    exact (h.code u c hc).same h1 h2

theorem At.tail {σ : St} {i : Instr} {k : List Instr} (h : At σ (i :: k))
    (hi : ∀ n, i ≠ .write (.response n) .nothing) : Plains σ.nf k := by
  cases h with
  | plain hp => exact hp.tail
  | write a b c => exact absurd rfl (hi _)
  | atom a b => exact b
  | read a b c => exact c

theorem at_expand {σ : St} (hr : RInv σ) {i : Instr} {k k' : List Instr} {c : Choice} (hw : ∀ n, i = wait n → c ≠ .no)
    (h : Plains σ.nf (i :: k)) (he : expand σ i k c = some k') : At σ k' := by
  obtain ⟨hi, hk⟩ := plains_cons.1 h
  cases i with
  | lambdaTest n =>
    cases c <;> simp only [expand, reduceCtorEq, Option.some.injEq] at he
    subst he
    split
    · refine .write ?_ ‹_› hk
      by_cases hlt : n < σ.nf
      · exact hlt
      · have := hr.fresh n (by omega)
        simp_all
    · exact .plain hk
  | wait n =>
    cases c <;> simp only [expand, reduceCtorEq] at he
    · split at he <;> cases he
      exact .read hi (by simpa using ‹¬ σ.waiting n = true›) hk
    · exact absurd rfl (hw n rfl)
  | receiveTest b s =>
    refine .plain ?_
    simp only [expand] at he
    split at he
    · split at he <;> simp at he
      subst he; exact hk
    · rename_i kind _
      obtain ⟨code, hb, rfl⟩ := Option.map_eq_some_iff.1 he
      have hcode : Plains σ.nf code := by
        cases kind <;> cases c <;> simp only [body, reduceCtorEq, Option.some.injEq] at hb <;> subst hb <;>
          simp [plains_cons, plains_append, Plain, plains_nil, plains_calls]
      simp [plains_cons, plains_append, Plain, hcode, hk]
  | forwardTest b =>
    refine .plain ?_
    cases c <;> simp only [expand, reduceCtorEq, Option.some.injEq] at he
    subst he
    split <;> simp [plains_cons, Plain, hk]
  | publishTest b p =>
    refine .plain ?_
    cases c <;> simp only [expand, reduceCtorEq, Option.some.injEq] at he
    subst he
    split <;> simp [plains_cons, Plain, hk]
  | subIter b =>
    refine .plain ?_
    cases c <;> simp only [expand, reduceCtorEq, Option.some.injEq] at he
    subst he
    exact plains_append.2 ⟨plains_flatMap (fun x => by simp [plains_cons, Plain, plains_nil]), by simp [plains_cons, Plain, hk]⟩
  | kidIter b =>
    refine .plain ?_
    cases c <;> simp only [expand, reduceCtorEq, Option.some.injEq] at he
    subst he
    exact plains_append.2 ⟨plains_flatMap (fun x => by simp [plains_cons, Plain, plains_nil]), by simp [plains_cons, Plain, hk]⟩
  | detachIter b =>
    refine .plain ?_
    cases c <;> simp only [expand, reduceCtorEq, Option.some.injEq] at he
    subst he
    exact plains_append.2 ⟨plains_flatMap (fun x => by simp [plains_cons, Plain, plains_nil]), by simp [plains_cons, Plain, hk]⟩
  | _ =>
    refine .plain ?_
    cases c <;> simp only [expand, reduceCtorEq, Option.some.injEq] at he <;> subst he <;>
      simp [plains_cons, Plain, hk]

theorem RInv.step {P : Policy} (hP : P.timeouts = false) {σ σ' : St} {a : Act} (hi : Inv P σ) (h : RInv σ)
    (ha : P.permits σ a) (hs : step σ a = some σ') : RInv σ' := by
  cases a with
  | spawn ops =>
    simp only [LP.Race.step, Option.some.injEq] at hs
    subst hs
    refine ⟨h.fresh, fun t k hk => ?_⟩
    rw [List.getElem?_append] at hk
    split at hk
    · exact At.same (σ := σ) (τ := { σ with threads := σ.threads ++ [ops.map call] }) rfl rfl (h.code t k hk)
    · have := List.mem_of_getElem? hk
      simp at this
      subst this
      exact .plain plains_calls
  | step t c =>
    simp only [LP.Race.step] at hs
    split at hs
    · cases hs
    · cases hs
    · rename_i i k hk
      have hat := h.code t _ hk
      split at hs
      · split at hs <;> cases hs
        exact h.move (.plain (hat.tail (by simp))) rfl rfl rfl
      · split at hs <;> cases hs
        exact h.move (.plain (hat.tail (by simp))) rfl rfl rfl
      · cases hs
        exact h.move (.plain (hat.tail (by simp))) rfl rfl rfl
      · rename_i l e
        cases hs
        cases hat with
        | plain hp =>
          have h0 := hp _ List.mem_cons_self
          have he : ∀ n, e ≠ .answered n := by
            cases l <;> first | exact h0 | exact h0.elim
          exact h.move (t := t) (.plain hp.tail) (by simp [St.goto]) (by simp [St.goto]) (by rw [apply_waiting _ he]; rfl)
        | write a b c => exact h.move (.atom a c) rfl rfl rfl
      · rename_i e
        cases hs
        cases hat with
        | plain hp => exact (hp _ List.mem_cons_self).elim
        | @atom n _ a b =>
          have hown : σ.owner notifier = some t := by
            obtain ⟨H, h1, _, h3⟩ := hi.good t _ hk
            exact (h3 _).2 h1.1
          refine ⟨fun m hm => ?_, fun u c hc => ?_⟩
          · simp only [St.apply, St.goto, upd]
            split
            · rfl
            · exact h.fresh m hm
          · simp only [St.apply, St.goto] at hc
            by_cases e : u = t
            · subst e
              rw [List.getElem?_set_self (List.getElem?_eq_some_iff.1 hk).1] at hc
              cases hc
              exact .plain b
            · rw [List.getElem?_set_ne (fun e' => e e'.symm)] at hc
              have hu := h.code u c hc
              cases hu with
              | plain hp => exact .plain hp
              | @write n' k' a' b' c' =>
                obtain ⟨H, h1, _, h3⟩ := hi.good u _ hc
                have := (h3 notifier).2 (h1.1.1 rfl)
                rw [hown] at this
                cases this
                exact absurd rfl e
              | atom a' b' => exact .atom a' b'
              | @read n' k' a' b' c' =>
                refine .read a' ?_ c'
                simp only [St.apply, St.goto, upd]
                split
                · rfl
                · exact b'
      · rename_i op
        split at hs <;> cases hs
        have hp := hat.tail (by simp)
        refine ⟨enter_fresh h.fresh op, fun u c hc => ?_⟩
        simp only [St.goto, enter_threads] at hc
        by_cases e : u = t
        · subst e
          rw [List.getElem?_set_self (List.getElem?_eq_some_iff.1 hk).1] at hc
          cases hc
          exact .plain (plains_append.2 ⟨plains_enter σ op, hp.mono (enter_nf σ op)⟩)
        · rw [List.getElem?_set_ne (fun e' => e e'.symm)] at hc
          have hle := enter_nf σ op
          have hu := h.code u c hc
          cases hu with
          | plain hp => exact .plain (hp.mono hle)
          | @write n' k' a' b' c' =>
            refine .write (Nat.lt_of_lt_of_le a' hle) ?_ (c'.mono hle)
            exact (enter_waiting σ op (by omega)).trans b'
          | atom a' b' => exact .atom (Nat.lt_of_lt_of_le a' hle) (b'.mono hle)
          | @read n' k' a' b' c' =>
            refine .read (Nat.lt_of_lt_of_le a' hle) ?_ (c'.mono hle)
            exact (enter_waiting σ op (by omega)).trans b'
      · cases hs
        split
        · exact h.move (.plain (plains_cons.2 ⟨by simp [Plain], hat.tail (by simp)⟩)) rfl rfl rfl
        · exact h.move (.plain (hat.tail (by simp))) rfl rfl rfl
      · obtain ⟨k', he, rfl⟩ := Option.map_eq_some_iff.1 hs
        refine h.move (at_expand h (fun n hn hc => ?_) ?_ he) rfl rfl rfl
        · subst hn hc
          rcases ha with ha | ha
          · simp [hP] at ha
          · exact ha n k hk
        · cases hat with
          | plain hp => exact hp
          | write a b c => simp_all
          | atom a b => simp_all
          | read a b c => simp_all

theorem Ready.rinv {σ : St} (h : Ready σ) (hf : ∀ n, σ.nf ≤ n → σ.waiting n = false) : RInv σ :=
  ⟨hf, fun t k hk => by
    have := h.2 k (List.mem_of_getElem? hk)
    subst this
    exact .plain plains_nil⟩

/-- Calls of `Request` to come are not waiting, whatever clients do. -/
theorem fresh_step {σ σ' : St} {a : Act} (h : ∀ n, σ.nf ≤ n → σ.waiting n = false) (hs : step σ a = some σ') :
    ∀ n, σ'.nf ≤ n → σ'.waiting n = false := by
  have happ : ∀ (τ : St) (e : Eff), (∀ n, τ.nf ≤ n → τ.waiting n = false) →
      ∀ n, (τ.apply e).nf ≤ n → (τ.apply e).waiting n = false := by
    intro τ e hτ n hn
    by_cases he : ∃ m, e = .answered m
    · obtain ⟨m, rfl⟩ := he
      simp only [St.apply, upd]
      split
      · rfl
      · exact hτ n hn
    · rw [apply_waiting τ (fun m hm => he ⟨m, hm⟩)]
      exact hτ n (by simpa using hn)
  cases a with
  | spawn ops => cases hs; exact h
  | step t c =>
    simp only [LP.Race.step] at hs
    split at hs
    · cases hs
    · cases hs
    · split at hs
      · split at hs <;> cases hs
        exact h
      · split at hs <;> cases hs
        exact h
      · cases hs; exact h
      · cases hs; exact happ _ _ h
      · cases hs; exact happ _ _ h
      · split at hs <;> cases hs
        exact enter_fresh h _
      · cases hs
        split <;> exact h
      · obtain ⟨k', he, rfl⟩ := Option.map_eq_some_iff.1 hs
        exact h

theorem Reach.fresh {P : Policy} {σ : St} (h : Reach P start σ) : ∀ n, σ.nf ≤ n → σ.waiting n = false := by
  induction h with
  | refl => intro n _; rfl
  | step _ _ hs ih => exact fresh_step ih hs

theorem RInv.reach {P : Policy} (hP : P.timeouts = false) {σ σ' : St} (hi : Inv P σ) (h : RInv σ) (hr : Reach P σ σ') :
    RInv σ' := by
  induction hr with
  | refl => exact h
  | step hr ha hs ih => exact ih.step hP (hi.reach hr) ha hs

/-- The answer is written while the call waits and read when it no longer does. -/
theorem RInv.no_race {P : Policy} {σ : St} (hi : Inv P σ) (h : RInv σ) (n : Nat) : ¬ Race σ (.response n) := by
  have key : ∀ (t t' : Nat) (i i' : Instr) (k k' : List Instr) (w' : Bool), t ≠ t' → σ.threads[t]? = some (i :: k) →
      σ.threads[t']? = some (i' :: k') → Accesses (.response n) true i → Accesses (.response n) w' i' → False := by
    intro t t' i i' k k' w' hne hk hk' ha ha'
    obtain ⟨H, h1, h2⟩ := hi.access hk ha
    have ho := (h2 notifier).2 (h1.1 rfl)
    cases w' with
    | true =>
      obtain ⟨H', h1', h2'⟩ := hi.access hk' ha'
      have ho' := (h2' notifier).2 (h1'.1 rfl)
      rw [ho] at ho'
      cases ho'; exact hne rfl
    | false =>
      have c1 := h.code t _ hk
      have c2 := h.code t' _ hk'
      cases i <;> simp only [Accesses, reduceCtorEq, and_false] at ha
      cases i' <;> simp only [Accesses, reduceCtorEq, and_false] at ha'
      obtain ⟨rfl, _⟩ := ha
      obtain ⟨rfl, _⟩ := ha'
      cases c1 with
      | plain hp => exact hp _ List.mem_cons_self
      | write a b c =>
        cases c2 with
        | plain hp => exact hp _ List.mem_cons_self
        | read a' b' c' => rw [b] at b'; cases b'
  rintro ⟨t, t', i, i', k, k', w, w', hne, hk, hk', ha, ha', hw⟩
  rcases hw with rfl | rfl
  · exact key t t' i i' k k' w' hne hk hk' ha ha'
  · exact key t' t i' i k' k w (fun e => hne e.symm) hk' hk ha' ha

end LP.Race
