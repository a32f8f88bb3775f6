import Verif.Spec.LinkConc
/-!
# Invariants of a link under concurrency
-/
namespace LP.LinkConc

theorem Proper.nil : Proper [] := ⟨by simp, by simp, by simp, by simp⟩

theorem get_snoc {l : List Zmq} {x c : Zmq} {i : Nat} (h : (l ++ [x])[i]? = some c) :
    (i < l.length ∧ l[i]? = some c) ∨ (i = l.length ∧ c = x) := by
  rcases Nat.lt_trichotomy i l.length with h' | h' | h'
  · left; exact ⟨h', by rwa [List.getElem?_append_left h'] at h⟩
  · right; subst h'; simp at h; exact ⟨rfl, h.symm⟩
  · exfalso
    rw [List.getElem?_append_right (Nat.le_of_lt h')] at h
    have : i - l.length ≠ 0 := by omega
    obtain ⟨n, hn⟩ := Nat.exists_eq_succ_of_ne_zero this
    rw [hn] at h; simp at h

theorem mem_get {l : List Zmq} {c : Zmq} {i : Nat} (h : l[i]? = some c) : c ∈ l := List.mem_of_getElem? h

theorem Proper.use {l : List Zmq} {s : Sock} (h : Proper l) (h1 : Zmq.close s ∉ l) (h2 : Zmq.term ∉ l) : Proper (l ++ [.use s]) := by
  refine ⟨by simpa using h.noNull, ?_, ?_, ?_⟩
  · intro i j t hi hj
    rcases get_snoc hi with ⟨_, hi⟩ | ⟨_, hi⟩
    · rcases get_snoc hj with ⟨_, hj⟩ | ⟨_, hj⟩
      · exact h.useBeforeClose _ _ _ hi hj
      · cases hj; exact absurd (mem_get hi) h1
    · cases hi
  · intro i j t hi hj
    rcases get_snoc hi with ⟨_, hi⟩ | ⟨_, hi⟩
    · rcases get_snoc hj with ⟨_, hj⟩ | ⟨_, hj⟩
      · exact h.closeOnce _ _ _ hi hj
      · cases hj
    · cases hi
  · intro i j c hi hj
    rcases get_snoc hi with ⟨_, hi⟩ | ⟨_, hi⟩
    · exact absurd (mem_get hi) h2
    · cases hi

theorem Proper.close {l : List Zmq} {s : Sock} (h : Proper l) (h1 : Zmq.close s ∉ l) (h2 : Zmq.term ∉ l) : Proper (l ++ [.close s]) := by
  refine ⟨by simpa using h.noNull, ?_, ?_, ?_⟩
  · intro i j t hi hj
    rcases get_snoc hj with ⟨hj', hj⟩ | ⟨_, hj⟩
    · rcases get_snoc hi with ⟨_, hi⟩ | ⟨hi', hi⟩
      · exact h.useBeforeClose _ _ _ hi hj
      · omega
    · cases hj
  · intro i j t hi hj
    rcases get_snoc hi with ⟨_, hi⟩ | ⟨hi', hi⟩
    · rcases get_snoc hj with ⟨_, hj⟩ | ⟨_, hj⟩
      · exact h.closeOnce _ _ _ hi hj
      · cases hj; exact absurd (mem_get hi) h1
    · rcases get_snoc hj with ⟨_, hj⟩ | ⟨hj', hj⟩
      · cases hi; exact absurd (mem_get hj) h1
      · omega
  · intro i j c hi hj
    rcases get_snoc hi with ⟨_, hi⟩ | ⟨_, hi⟩
    · exact absurd (mem_get hi) h2
    · cases hi

theorem Proper.term {l : List Zmq} (h : Proper l) (h2 : Zmq.term ∉ l) : Proper (l ++ [.term]) := by
  refine ⟨by simpa using h.noNull, ?_, ?_, ?_⟩
  · intro i j t hi hj
    rcases get_snoc hi with ⟨_, hi⟩ | ⟨_, hi⟩
    · rcases get_snoc hj with ⟨_, hj⟩ | ⟨_, hj⟩
      · exact h.useBeforeClose _ _ _ hi hj
      · cases hj
    · cases hi
  · intro i j t hi hj
    rcases get_snoc hi with ⟨_, hi⟩ | ⟨_, hi⟩
    · rcases get_snoc hj with ⟨_, hj⟩ | ⟨_, hj⟩
      · exact h.closeOnce _ _ _ hi hj
      · cases hj
    · cases hi
  · intro i j c hi hj
    rcases get_snoc hi with ⟨_, hi⟩ | ⟨hi', hi⟩
    · exact absurd (mem_get hi) h2
    · rcases get_snoc hj with ⟨hj', hj⟩ | ⟨hj', hj⟩ <;> omega

/-- `Deinitialize` has removed the subscriber. -/
def past : OwnPc → Bool
  | .idle => false
  | .joining => false
  | .remove => false
  | _ => true

/-- A well-formed position of the owner, with what it implies for pointers and context. -/
def OwnerOk (σ : St) : Prop :=
  match σ.owner with
  | .idle => True
  | .joining => σ.shouldRun = false
  | .remove => True
  | .lock n => n ≤ 3
  | .context => True
  | .close n => n ≤ 3 ∧ σ.ctx = true ∧ ∀ m, m < n → σ.ptr (order m) = false
  | .clear n => n ≤ 3 ∧ σ.ctx = true ∧ (∀ m, m < n → σ.ptr (order m) = false) ∧ σ.ptr (order n) = true
  | .term => σ.ctx = true ∧ ∀ s, σ.ptr s = false
  | .forget => σ.ctx = true ∧ ∀ s, σ.ptr s = false
  | .unlock n => 1 ≤ n ∧ n ≤ 4 ∧ σ.ctx = false ∧ ∀ s, σ.ptr s = false
  | .done => σ.ctx = false ∧ ∀ s, σ.ptr s = false

/-- The bus thread only deals with the publishing sockets, and has found the pointer not to be null. -/
def BusOk (σ : St) : Prop :=
  match σ.bus with
  | .away => True
  | .before => True
  | .test s => σ.registered = true ∧ (s = .serverPub ∨ s = .clientPub)
  | .want s => σ.registered = true ∧ (s = .serverPub ∨ s = .clientPub) ∧ σ.ptr s = true
  | .send s => σ.registered = true ∧ (s = .serverPub ∨ s = .clientPub) ∧ σ.ptr s = true
  | .unlock s => σ.registered = true ∧ (s = .serverPub ∨ s = .clientPub)
  | .after => True

/-- The worker only deals with the subscribing sockets. -/
def WorkOk : WorkPc → Prop
  | .gone => True
  | .top => True
  | .want s => s = .serverSub ∨ s = .clientSub
  | .check s => s = .serverSub ∨ s = .clientSub
  | .receive s => s = .serverSub ∨ s = .clientSub
  | .publish s => s = .serverSub ∨ s = .clientSub
  | .unlock s => s = .serverSub ∨ s = .clientSub

/-- The owner is about to clear the pointer of `s`. -/
def clearing (s : Sock) : OwnPc → Bool
  | .clear n => order n == s
  | _ => false

/-- The context has been terminated. -/
def ended : OwnPc → Bool
  | .forget => true
  | .unlock _ => true
  | .done => true
  | _ => false

/-- Everything that holds in all states of a link with context `c0` and sockets `m0`. -/
structure Inv (c0 : Bool) (m0 : Sock → Bool) (σ : St) : Prop where
  owner : OwnerOk σ
  bus : BusOk σ
  work : WorkOk σ.worker
  reg : σ.registered = !past σ.owner
  excl : ∀ s, ownerHolds s σ.owner = true → workerHolds s σ.worker = false
  noctx : σ.ctx = false → ∀ s, σ.ptr s = false
  proper : Proper σ.calls
  closed : ∀ s, Zmq.close s ∈ σ.calls ↔ ((c0 && m0 s) = true ∧ (σ.ptr s = false ∨ clearing s σ.owner = true))
  ptr : ∀ s, σ.ptr s = true → (c0 && m0 s) = true
  term : Zmq.term ∈ σ.calls ↔ (c0 = true ∧ ended σ.owner = true)
  ctx0 : σ.ctx = true → c0 = true
  ctx1 : c0 = true → σ.ctx = true ∨ ended σ.owner = true

theorem inv_initial (c0 : Bool) (m0 : Sock → Bool) : Inv c0 m0 (initial c0 m0) := by
  refine ⟨trivial, trivial, trivial, rfl, ?_, ?_, Proper.nil, ?_, ?_, ?_, ?_, ?_⟩
  · intro s h; simp [ownerHolds, initial, ownerHeld] at h
  · intro h s; simp only [initial] at h ⊢; rw [h]; rfl
  · intro s; simp [initial, clearing]
  · intro s h; exact h
  · simp [initial, ended]
  · exact id
  · exact fun h => .inl h

/-- Changing only the bus thread. -/
theorem Inv.withBus {c0 m0} {σ : St} (h : Inv c0 m0 σ) (b : BusPc) (hb : BusOk { σ with bus := b }) :
    Inv c0 m0 { σ with bus := b } :=
  ⟨h.owner, hb, h.work, h.reg, h.excl, h.noctx, h.proper, h.closed, h.ptr, h.term, h.ctx0, h.ctx1⟩

theorem busNext_ok {σ : St} {s : Sock} (h : σ.registered = true) : BusOk { σ with bus := busNext s } := by
  cases s <;> simp [busNext, BusOk, h]

theorem not_past {c0 m0} {σ : St} (h : Inv c0 m0 σ) (hr : σ.registered = true) : past σ.owner = false := by
  have := h.reg; rw [hr] at this; cases hp : past σ.owner
  · rfl
  · rw [hp] at this; cases this

theorem not_closing {c0 m0} {σ : St} {s : Sock} (h : Inv c0 m0 σ) (hc : clearing s σ.owner = false) (hp : σ.ptr s = true) :
    Zmq.close s ∉ σ.calls := by
  intro hm
  rcases (h.closed s).1 hm with ⟨_, h' | h'⟩
  · rw [hp] at h'; cases h'
  · rw [hc] at h'; cases h'

theorem inv_bus {c0 m0} {σ σ' : St} {p : Bool} (h : Inv c0 m0 σ) (hs : busStep σ p = some σ') : Inv c0 m0 σ' := by
  unfold busStep at hs
  have hb := h.bus
  unfold BusOk at hb
  cases hpc : σ.bus with
  | away => rw [hpc] at hs; cases hs
  | before =>
    rw [hpc] at hs; simp only at hs
    split at hs <;> cases hs
    · rename_i hr
      refine h.withBus _ ?_
      simp at hr; exact ⟨hr.1, .inl rfl⟩
    · exact h.withBus _ trivial
  | test s =>
    rw [hpc] at hs hb; simp only at hs hb
    split at hs <;> cases hs
    · rename_i hr; exact h.withBus _ ⟨hb.1, hb.2, hr⟩
    · exact h.withBus _ (busNext_ok hb.1)
  | want s =>
    rw [hpc] at hs hb; simp only at hs hb
    split at hs <;> cases hs
    exact h.withBus _ hb
  | send s =>
    rw [hpc] at hs hb; simp only at hs hb
    cases hs
    obtain ⟨hr, hsock, hp⟩ := hb
    have hpast := not_past h hr
    have hcl : clearing s σ.owner = false := by
      cases ho : σ.owner <;> simp [ho, past] at hpast <;> rfl
    have hend : ended σ.owner = false := by
      cases ho : σ.owner <;> simp [ho, past] at hpast <;> rfl
    have hnt : Zmq.term ∉ σ.calls := fun hm => by have := (h.term.1 hm).2; rw [hend] at this; cases this
    refine ⟨h.owner, ⟨hr, hsock⟩, h.work, h.reg, h.excl, h.noctx, ?_, ?_, h.ptr, ?_, h.ctx0, h.ctx1⟩
    · simp only [hp, if_true]; exact h.proper.use (not_closing h hcl hp) hnt
    · intro t; rw [← h.closed t]; simp [hp]
    · rw [← h.term]; simp [hp]
  | unlock s =>
    rw [hpc] at hs hb; simp only at hs hb
    cases hs
    exact h.withBus _ (busNext_ok hb.1)
  | after =>
    rw [hpc] at hs; cases hs
    exact h.withBus _ trivial

/-- Changing only the worker. -/
theorem Inv.withWork {c0 m0} {σ : St} (h : Inv c0 m0 σ) (k : WorkPc) (hk : WorkOk k)
    (he : ∀ s, ownerHolds s σ.owner = true → workerHolds s k = false) : Inv c0 m0 { σ with worker := k } :=
  ⟨h.owner, h.bus, hk, h.reg, he, h.noctx, h.proper, h.closed, h.ptr, h.term, h.ctx0, h.ctx1⟩

theorem workNext_ok (s : Sock) : WorkOk (workNext s) := by cases s <;> simp [workNext, WorkOk]
theorem workNext_holds (s t : Sock) : workerHolds t (workNext s) = false := by cases s <;> rfl

theorem inv_worker {c0 m0} {σ σ' : St} {g : Bool} (h : Inv c0 m0 σ) (hs : workerStep σ g = some σ') : Inv c0 m0 σ' := by
  unfold workerStep at hs
  have hw := h.work
  have hx := h.excl
  cases hpc : σ.worker with
  | gone => rw [hpc] at hs; cases hs
  | top =>
    rw [hpc] at hs; simp only at hs
    split at hs <;> cases hs
    · exact h.withWork _ (.inl rfl) (fun _ _ => rfl)
    · exact h.withWork _ trivial (fun _ _ => rfl)
  | want s =>
    rw [hpc] at hs hw; simp only at hs
    split at hs <;> cases hs
    rename_i hn
    refine h.withWork _ hw ?_
    intro t ht
    simp only [workerHolds, beq_eq_false_iff_ne, ne_eq]
    rintro rfl
    simp [ht] at hn
  | check s =>
    rw [hpc] at hs hw hx; simp only at hs
    split at hs <;> cases hs <;> exact h.withWork _ hw hx
  | receive s =>
    rw [hpc] at hs hw hx; simp only at hs
    split at hs <;> cases hs
    · rename_i hp
      have hno : ownerHolds s σ.owner = false := by
        cases ho : ownerHolds s σ.owner
        · rfl
        · have := hx s ho; simp [workerHolds] at this
      have hcl : clearing s σ.owner = false := by
        cases ho : σ.owner <;> try rfl
        exfalso
        rw [ho] at hno
        cases s <;> simp [ownerHolds, ownerHeld, position] at hno
      have hnt : Zmq.term ∉ σ.calls := fun hm => by
        have he := (h.term.1 hm).2
        have hok := h.owner
        unfold OwnerOk at hok
        cases ho : σ.owner <;> rw [ho] at he hok <;> simp [ended] at he <;> simp [hp] at hok
        · have := hok.2 s; rw [hp] at this; cases this
        · have := hok.2.2.2 s; rw [hp] at this; cases this
        · have := hok.2 s; rw [hp] at this; cases this
      refine ⟨h.owner, h.bus, ?_, h.reg, ?_, h.noctx, ?_, ?_, h.ptr, ?_, h.ctx0, h.ctx1⟩
      · cases g <;> exact hw
      · intro t ht; have := hx t ht; cases g <;> exact this
      · exact h.proper.use (not_closing h hcl hp) hnt
      · intro t; rw [← h.closed t]; simp
      · rw [← h.term]; simp
    · exact h.withWork _ hw hx
  | publish s =>
    rw [hpc] at hs hw hx; cases hs
    exact h.withWork _ hw hx
  | unlock s =>
    rw [hpc] at hs; cases hs
    exact h.withWork _ (workNext_ok s) (fun t _ => workNext_holds s t)

theorem order_position {s : Sock} {n : Nat} (hn : n ≤ 3) : order n = s ↔ position s = n := by
  have : n = 0 ∨ n = 1 ∨ n = 2 ∨ n = 3 := by omega
  rcases this with rfl | rfl | rfl | rfl <;> cases s <;> simp [order, position]

theorem position_le (s : Sock) : position s ≤ 3 := by cases s <;> simp [position]
theorem order_pos (s : Sock) : order (position s) = s := by cases s <;> rfl

theorem lt_four {P : Nat → Prop} (h : ∀ m, m < 3 → P m) (h3 : P 3) : ∀ m, m ≤ 3 → P m := by
  intro m hm
  rcases Nat.lt_or_ge m 3 with h' | h'
  · exact h m h'
  · have : m = 3 := by omega
    subst this; exact h3

/-- After the subscriber is removed the bus thread is not in the callback. -/
theorem BusOk.quiet {σ : St} (h : BusOk σ) (hr : σ.registered = false) : σ.bus = .away ∨ σ.bus = .before ∨ σ.bus = .after := by
  unfold BusOk at h
  cases hb : σ.bus <;> rw [hb] at h <;> simp_all

theorem BusOk.ofQuiet {σ : St} (h : σ.bus = .away ∨ σ.bus = .before ∨ σ.bus = .after) : BusOk σ := by
  unfold BusOk
  rcases h with h | h | h <;> rw [h] <;> trivial

theorem inv_owner {c0 m0} {σ σ' : St} (h : Inv c0 m0 σ) (hs : ownerStep σ = some σ') : Inv c0 m0 σ' := by
  unfold ownerStep at hs
  have hok := h.owner
  unfold OwnerOk at hok
  have hreg := h.reg
  have hx := h.excl
  have hcl := h.closed
  have htm := h.term
  have hc1 := h.ctx1
  cases hpc : σ.owner with
  | idle => rw [hpc] at hs; cases hs
  | joining =>
    rw [hpc] at hs hreg hx hcl htm hc1; simp only at hs
    split at hs <;> cases hs
    exact ⟨trivial, h.bus, h.work, hreg, hx, h.noctx, h.proper, hcl, h.ptr, htm, h.ctx0, hc1⟩
  | remove =>
    rw [hpc] at hs hx hcl htm hc1; simp only at hs
    split at hs <;> cases hs
    rename_i hb
    have hb' : σ.bus = .away := by cases hb'' : σ.bus <;> simp [hb'', busInLoop] at hb ⊢
    exact ⟨Nat.zero_le _, BusOk.ofQuiet (.inl hb'), h.work, rfl, hx, h.noctx, h.proper, hcl, h.ptr, htm, h.ctx0, hc1⟩
  | lock n =>
    rw [hpc] at hs hok hreg hx hcl htm hc1; simp only at hs hok
    split at hs <;> cases hs
    rename_i hfree
    simp only [Bool.or_eq_true, not_or, Bool.not_eq_true] at hfree
    have hx' : ∀ s, position s < n + 1 → workerHolds s σ.worker = false := by
      intro s hs
      rcases Nat.lt_or_ge (position s) n with h' | h'
      · exact hx s (by simp [ownerHolds, ownerHeld, h'])
      · have : position s = n := by omega
        rw [← (order_position hok).2 this]; exact hfree.2
    have hbus := BusOk.ofQuiet (σ := { σ with owner := if n < 3 then OwnPc.lock (n + 1) else .context }) (h.bus.quiet hreg)
    by_cases hn : n < 3
    · simp only [if_pos hn] at hbus ⊢
      refine ⟨hn, hbus, h.work, hreg, ?_, h.noctx, h.proper, hcl, h.ptr, htm, h.ctx0, hc1⟩
      intro s hs; exact hx' s (of_decide_eq_true hs)
    · have : n = 3 := by omega
      subst this
      simp only [if_neg hn] at hbus ⊢
      refine ⟨trivial, hbus, h.work, hreg, ?_, h.noctx, h.proper, hcl, h.ptr, htm, h.ctx0, hc1⟩
      intro s hs; exact hx' s (of_decide_eq_true hs)
  | context =>
    rw [hpc] at hs hreg hx hcl htm hc1; cases hs
    have hbus := BusOk.ofQuiet (σ := { σ with owner := if σ.ctx then OwnPc.close 0 else .unlock 4 }) (h.bus.quiet hreg)
    by_cases hc : σ.ctx = true
    · simp only [if_pos hc] at hbus ⊢
      exact ⟨⟨Nat.zero_le _, hc, by intro m hm; omega⟩, hbus, h.work, hreg, hx, h.noctx, h.proper, hcl, h.ptr, htm, h.ctx0, fun _ => .inl hc⟩
    · simp only [if_neg hc] at hbus ⊢
      simp only [Bool.not_eq_true] at hc
      have hc0 : c0 = false := by
        cases hc0 : c0
        · rfl
        · rcases hc1 hc0 with h' | h'
          · rw [hc] at h'; cases h'
          · cases h'
      refine ⟨⟨by omega, Nat.le_refl _, hc, h.noctx hc⟩, hbus, h.work, hreg, hx, h.noctx, h.proper, ?_, h.ptr, ?_, h.ctx0, ?_⟩
      · intro s; rw [hcl s]; simp [clearing]
      · rw [htm]; simp [hc0]
      · intro h'; rw [hc0] at h'; cases h'
  | close n =>
    rw [hpc] at hs hok hreg hx hcl htm hc1; simp only at hs hok
    obtain ⟨hn, hc, hbelow⟩ := hok
    split at hs <;> cases hs
    · rename_i hp
      have hbus := BusOk.ofQuiet (σ := { σ with owner := .clear n, calls := σ.calls ++ [.close (order n)] }) (h.bus.quiet hreg)
      have hno : Zmq.close (order n) ∉ σ.calls := by
        intro hm; rcases (hcl _).1 hm with ⟨_, h' | h'⟩
        · rw [hp] at h'; cases h'
        · cases h'
      have hnt : Zmq.term ∉ σ.calls := fun hm => by have := (htm.1 hm).2; cases this
      refine ⟨⟨hn, hc, hbelow, hp⟩, hbus, h.work, hreg, hx, h.noctx, h.proper.close hno hnt, ?_, h.ptr, ?_, h.ctx0, fun _ => .inl hc⟩
      · intro s
        simp only [List.mem_append, List.mem_singleton, Zmq.close.injEq]
        rw [hcl s]
        simp only [clearing, beq_iff_eq]
        constructor
        · rintro (⟨h1, h2⟩ | rfl)
          · exact ⟨h1, h2.imp id (fun e => by cases e)⟩
          · exact ⟨h.ptr _ hp, .inr rfl⟩
        · rintro ⟨h1, h2 | h2⟩
          · exact .inl ⟨h1, .inl h2⟩
          · exact .inr h2.symm
      · simp only [List.mem_append, List.mem_singleton]; rw [htm]; simp [ended]
    · rename_i hp
      simp only [Bool.not_eq_true] at hp
      have hbus := BusOk.ofQuiet (σ := { σ with owner := if n < 3 then OwnPc.close (n + 1) else .term }) (h.bus.quiet hreg)
      have hbelow' : ∀ m, m < n + 1 → σ.ptr (order m) = false := by
        intro m hm
        rcases Nat.lt_or_ge m n with h' | h'
        · exact hbelow m h'
        · have : m = n := by omega
          rw [this]; exact hp
      by_cases h3 : n < 3
      · simp only [if_pos h3] at hbus ⊢
        exact ⟨⟨h3, hc, hbelow'⟩, hbus, h.work, hreg, hx, h.noctx, h.proper, hcl, h.ptr, htm, h.ctx0, fun _ => .inl hc⟩
      · have : n = 3 := by omega
        subst this
        simp only [if_neg h3] at hbus ⊢
        refine ⟨⟨hc, ?_⟩, hbus, h.work, hreg, hx, h.noctx, h.proper, ?_, h.ptr, htm, h.ctx0, fun _ => .inl hc⟩
        · intro s; have := hbelow' (position s) (by have := position_le s; omega); rwa [order_pos] at this
        · exact hcl
  | clear n =>
    rw [hpc] at hs hok hreg hx hcl htm hc1; simp only at hs hok
    obtain ⟨hn, hc, hbelow, hp⟩ := hok
    cases hs
    have hq := h.bus.quiet hreg
    have hbelow' : ∀ m, m < n + 1 → (if order m = order n then false else σ.ptr (order m)) = false := by
      intro m hm
      split
      · rfl
      · rcases Nat.lt_or_ge m n with h' | h'
        · exact hbelow m h'
        · rename_i hne
          have : m = n := by omega
          rw [this] at hne; exact absurd rfl hne
    have hno : ∀ s, (if s = order n then false else σ.ptr s) = true → σ.ptr s = true := by
      intro s hs; split at hs
      · cases hs
      · exact hs
    have hclose : ∀ s, Zmq.close s ∈ σ.calls ↔ (c0 && m0 s) = true ∧ ((if s = order n then false else σ.ptr s) = false ∨ False) := by
      intro s; rw [hcl s]
      simp only [clearing, beq_iff_eq, or_false]
      constructor
      · rintro ⟨h1, h2 | h2⟩
        · exact ⟨h1, by rw [h2]; simp⟩
        · exact ⟨h1, by simp [h2]⟩
      · rintro ⟨h1, h2⟩
        refine ⟨h1, ?_⟩
        by_cases he : s = order n
        · exact .inr he.symm
        · left; rwa [if_neg he] at h2
    by_cases h3 : n < 3
    · simp only [if_pos h3]
      refine ⟨⟨h3, hc, hbelow'⟩, BusOk.ofQuiet hq, h.work, hreg, hx, ?_, h.proper, ?_, ?_, htm, h.ctx0, fun _ => .inl hc⟩
      · intro hc'; rw [hc] at hc'; cases hc'
      · intro s; rw [hclose s]; simp [clearing]
      · intro s hs; exact h.ptr s (hno s hs)
    · have : n = 3 := by omega
      subst this
      simp only [if_neg h3]
      refine ⟨⟨hc, ?_⟩, BusOk.ofQuiet hq, h.work, hreg, hx, ?_, h.proper, ?_, ?_, htm, h.ctx0, fun _ => .inl hc⟩
      · intro s; have := hbelow' (position s) (by have := position_le s; omega); rwa [order_pos] at this
      · intro hc'; rw [hc] at hc'; cases hc'
      · intro s; rw [hclose s]; simp [clearing]
      · intro s hs; exact h.ptr s (hno s hs)
  | term =>
    rw [hpc] at hs hok hreg hx hcl htm hc1; simp only at hs hok
    obtain ⟨hc, hall⟩ := hok
    split at hs <;> cases hs
    have hnt : Zmq.term ∉ σ.calls := fun hm => by have := (htm.1 hm).2; cases this
    refine ⟨⟨hc, hall⟩, BusOk.ofQuiet (h.bus.quiet hreg), h.work, hreg, hx, h.noctx, h.proper.term hnt, ?_, h.ptr, ?_, h.ctx0, fun _ => .inl hc⟩
    · intro s; simp only [List.mem_append, List.mem_singleton]; rw [hcl s]; simp [clearing]
    · simp [ended, h.ctx0 hc]
  | forget =>
    rw [hpc] at hs hok hreg hx hcl htm hc1; simp only at hs hok
    obtain ⟨hc, hall⟩ := hok
    cases hs
    refine ⟨⟨by omega, Nat.le_refl _, rfl, hall⟩, BusOk.ofQuiet (h.bus.quiet hreg), h.work, hreg, hx, fun _ => hall, h.proper, ?_, h.ptr, ?_, ?_, fun _ => .inr rfl⟩
    · intro s; rw [hcl s]; simp [clearing]
    · rw [htm]; simp [ended]
    · intro h'; cases h'
  | unlock n =>
    rw [hpc] at hs hok hreg hx hcl htm hc1; simp only at hs hok
    obtain ⟨h1, h4, hc, hall⟩ := hok
    cases hs
    have hq := h.bus.quiet hreg
    by_cases h2 : 1 < n
    · simp only [if_pos h2]
      refine ⟨⟨by omega, by omega, hc, hall⟩, BusOk.ofQuiet hq, h.work, hreg, ?_, h.noctx, h.proper, ?_, h.ptr, ?_, h.ctx0, fun _ => .inr rfl⟩
      · intro s hs; refine hx s ?_
        have hs' : position s < n - 1 := of_decide_eq_true hs
        exact decide_eq_true (show position s < n by omega)
      · intro s; rw [hcl s]; simp [clearing]
      · rw [htm]; simp [ended]
    · simp only [if_neg h2]
      refine ⟨⟨hc, hall⟩, BusOk.ofQuiet hq, h.work, hreg, ?_, h.noctx, h.proper, ?_, h.ptr, ?_, h.ctx0, fun _ => .inr rfl⟩
      · intro s hs; simp [ownerHolds, ownerHeld] at hs
      · intro s; rw [hcl s]; simp [clearing]
      · rw [htm]; simp [ended]
  | done => rw [hpc] at hs; cases hs

theorem inv_step {c0 m0} {σ σ' : St} {a : Act} (h : Inv c0 m0 σ) (hs : step σ a = some σ') : Inv c0 m0 σ' := by
  cases a with
  | enter => simp only [step] at hs; split at hs <;> cases hs; exact h.withBus _ trivial
  | bus p => exact inv_bus h hs
  | worker g => exact inv_worker h hs
  | stop =>
    simp only [step] at hs
    split at hs
    · rename_i ho
      split at hs <;> cases hs
      · have hreg := h.reg; have hx := h.excl; have hcl := h.closed; have htm := h.term; have hc1 := h.ctx1
        rw [ho] at hreg hx hcl htm hc1
        exact ⟨rfl, h.bus, h.work, hreg, hx, h.noctx, h.proper, hcl, h.ptr, htm, h.ctx0, hc1⟩
      · exact h
    · cases hs
  | deinitialize =>
    simp only [step] at hs
    split at hs <;> cases hs
    rename_i ho
    have hreg := h.reg; have hx := h.excl; have hcl := h.closed; have htm := h.term; have hc1 := h.ctx1
    rw [ho] at hreg hx hcl htm hc1
    exact ⟨trivial, h.bus, h.work, hreg, hx, h.noctx, h.proper, hcl, h.ptr, htm, h.ctx0, hc1⟩
  | owner => exact inv_owner h hs

theorem inv_exec {c0 m0} {σ σ' : St} {as : List Act} (h : Inv c0 m0 σ) (hs : exec σ as = some σ') : Inv c0 m0 σ' := by
  induction as generalizing σ with
  | nil => cases hs; exact h
  | cons a as ih =>
    simp only [exec] at hs
    cases h1 : step σ a with
    | none => rw [h1] at hs; cases hs
    | some σ1 => rw [h1] at hs; exact ih (inv_step h h1) hs

theorem Reachable.inv {c0 m0} {σ : St} (h : Reachable c0 m0 σ) : Inv c0 m0 σ := by
  obtain ⟨as, h⟩ := h
  exact inv_exec (inv_initial c0 m0) h

/-! ## Progress of a thread that the owner waits for -/

/-- `n` steps of the bus thread with the given choices. -/
def busSteps (f : Nat → Bool) (n : Nat) : List Act := (List.range n).map (fun i => .bus (f i))
/-- `n` steps of the worker with the given choices. -/
def workerSteps (f : Nat → Bool) (n : Nat) : List Act := (List.range n).map (fun i => .worker (f i))

theorem reach_goal (mk : Bool → Act) (P Q : St → Prop) (μ : St → Nat)
    (hd : ∀ σ, P σ → Q σ ∨ ∀ b, ∃ σ', step σ (mk b) = some σ' ∧ P σ' ∧ μ σ' < μ σ) :
    ∀ (k : Nat) (σ : St), μ σ ≤ k → P σ → ∀ f : Nat → Bool, ∃ n, n ≤ k ∧ ∃ σ',
      exec σ ((List.range n).map (fun i => mk (f i))) = some σ' ∧ P σ' ∧ Q σ' := by
  intro k
  induction k with
  | zero =>
    intro σ hk hp f
    rcases hd σ hp with hq | hstep
    · exact ⟨0, Nat.le_refl _, σ, rfl, hp, hq⟩
    · obtain ⟨σ', _, _, hlt⟩ := hstep true; omega
  | succ k ih =>
    intro σ hk hp f
    rcases hd σ hp with hq | hstep
    · exact ⟨0, Nat.zero_le _, σ, rfl, hp, hq⟩
    · obtain ⟨σ', hs, hp', hlt⟩ := hstep (f 0)
      obtain ⟨n, hn, σ2, he, hq⟩ := ih σ' (by omega) hp' (fun i => f (i + 1))
      refine ⟨n + 1, by omega, σ2, ?_, hq⟩
      rw [List.range_succ_eq_map, List.map_cons, List.map_map]
      simp only [exec, hs, Option.bind_some]
      exact he

/-- Steps the bus thread still has to make in the subscriber loop. -/
def busLeft : BusPc → Nat
  | .away => 0
  | .after => 1
  | .unlock .serverPub => 6
  | .unlock _ => 2
  | .send .serverPub => 7
  | .send _ => 3
  | .want .serverPub => 8
  | .want _ => 4
  | .test .serverPub => 9
  | .test _ => 5
  | .before => 10

/-- Steps the worker still has to make in the current iteration; `stop`: after which it returns. -/
def workLeft : WorkPc → Nat
  | .gone => 0
  | .top => 1
  | .unlock .serverSub => 7
  | .unlock _ => 2
  | .publish .serverSub => 8
  | .publish _ => 3
  | .receive .serverSub => 9
  | .receive _ => 4
  | .check .serverSub => 10
  | .check _ => 5
  | .want .serverSub => 11
  | .want _ => 6

theorem bus_drains {c0 m0} (σ : St) (hp : Inv c0 m0 σ ∧ σ.owner = .remove) :
    (ownerStep σ).isSome = true ∨ ∀ b, ∃ σ', step σ (.bus b) = some σ' ∧ (Inv c0 m0 σ' ∧ σ'.owner = .remove) ∧
      busLeft σ'.bus < busLeft σ.bus := by
  obtain ⟨hi, ho⟩ := hp
  have hb := hi.bus
  have hw := hi.work
  unfold BusOk at hb
  cases hpc : σ.bus with
  | away => left; simp [ownerStep, ho, hpc, busInLoop]
  | before =>
    right; intro b
    by_cases hc : (σ.registered && b) = true
    · have hs : step σ (.bus b) = some { σ with bus := .test .serverPub } := by simp only [step, busStep, hpc, if_pos hc]
      exact ⟨_, hs, ⟨inv_step hi hs, ho⟩, by simp [busLeft]⟩
    · have hs : step σ (.bus b) = some { σ with bus := .after } := by simp only [step, busStep, hpc, if_neg hc]
      exact ⟨_, hs, ⟨inv_step hi hs, ho⟩, by simp [busLeft]⟩
  | test s =>
    rw [hpc] at hb; simp only at hb
    right; intro b
    by_cases hc : σ.ptr s = true
    · have hs : step σ (.bus b) = some { σ with bus := .want s } := by simp only [step, busStep, hpc, if_pos hc]
      exact ⟨_, hs, ⟨inv_step hi hs, ho⟩, by rcases hb.2 with rfl | rfl <;> simp [busLeft]⟩
    · have hs : step σ (.bus b) = some { σ with bus := busNext s } := by simp only [step, busStep, hpc, if_neg hc]
      exact ⟨_, hs, ⟨inv_step hi hs, ho⟩, by rcases hb.2 with rfl | rfl <;> simp [busLeft, busNext]⟩
  | want s =>
    rw [hpc] at hb; simp only at hb
    right; intro b
    have hc : (workerHolds s σ.worker || ownerHolds s σ.owner) = false := by
      rw [ho]
      have : workerHolds s σ.worker = false := by
        unfold WorkOk at hw
        cases hk : σ.worker <;> rw [hk] at hw <;> simp only [workerHolds, beq_eq_false_iff_ne, ne_eq] <;>
          (rintro rfl; rcases hb.2.1 with rfl | rfl <;> simp at hw)
      simp [this, ownerHolds, ownerHeld]
    have hs : step σ (.bus b) = some { σ with bus := .send s } := by
      simp only [step, busStep, hpc, hc]; rfl
    exact ⟨_, hs, ⟨inv_step hi hs, ho⟩, by rcases hb.2.1 with rfl | rfl <;> simp [busLeft]⟩
  | send s =>
    rw [hpc] at hb; simp only at hb
    right; intro b
    have hs : step σ (.bus b) = some { σ with bus := .unlock s, calls := σ.calls ++ [if σ.ptr s then .use s else .useNull s] } := by
      simp only [step, busStep, hpc]
    exact ⟨_, hs, ⟨inv_step hi hs, ho⟩, by rcases hb.2.1 with rfl | rfl <;> simp [busLeft]⟩
  | unlock s =>
    rw [hpc] at hb; simp only at hb
    right; intro b
    have hs : step σ (.bus b) = some { σ with bus := busNext s } := by simp only [step, busStep, hpc]
    exact ⟨_, hs, ⟨inv_step hi hs, ho⟩, by rcases hb.2 with rfl | rfl <;> simp [busLeft, busNext]⟩
  | after =>
    right; intro b
    have hs : step σ (.bus b) = some { σ with bus := .away } := by simp only [step, busStep, hpc]
    exact ⟨_, hs, ⟨inv_step hi hs, ho⟩, by simp [busLeft]⟩

/-- A step of the worker that is not waiting for a mutex and not at the head of its loop. -/
theorem worker_inside {c0 m0} {σ : St} (hi : Inv c0 m0 σ) (s : Sock)
    (hh : workerHolds s σ.worker = true) (b : Bool) :
    ∃ k σ', step σ (.worker b) = some σ' ∧ σ'.worker = k ∧ σ'.owner = σ.owner ∧ σ'.shouldRun = σ.shouldRun ∧
      σ'.bus = σ.bus ∧ Inv c0 m0 σ' ∧ workLeft k < workLeft σ.worker := by
  have hw := hi.work
  unfold WorkOk at hw
  cases hpc : σ.worker with
  | gone => rw [hpc] at hh; cases hh
  | top => rw [hpc] at hh; cases hh
  | want t => rw [hpc] at hh; cases hh
  | check t =>
    rw [hpc] at hw; simp only at hw
    by_cases hc : σ.ctx = true
    · have hs : step σ (.worker b) = some { σ with worker := .receive t } := by simp only [step, workerStep, hpc, if_pos hc]
      exact ⟨_, _, hs, rfl, rfl, rfl, rfl, inv_step hi hs, by rcases hw with rfl | rfl <;> simp [workLeft]⟩
    · have hs : step σ (.worker b) = some { σ with worker := .unlock t } := by simp only [step, workerStep, hpc, if_neg hc]
      exact ⟨_, _, hs, rfl, rfl, rfl, rfl, inv_step hi hs, by rcases hw with rfl | rfl <;> simp [workLeft]⟩
  | receive t =>
    rw [hpc] at hw; simp only at hw
    by_cases hc : σ.ptr t = true
    · have hs : step σ (.worker b) = some { σ with worker := if b then .publish t else .unlock t, calls := σ.calls ++ [.use t] } := by
        simp only [step, workerStep, hpc, if_pos hc]
      exact ⟨_, _, hs, rfl, rfl, rfl, rfl, inv_step hi hs, by cases b <;> rcases hw with rfl | rfl <;> simp [workLeft]⟩
    · have hs : step σ (.worker b) = some { σ with worker := .unlock t } := by simp only [step, workerStep, hpc, if_neg hc]
      exact ⟨_, _, hs, rfl, rfl, rfl, rfl, inv_step hi hs, by rcases hw with rfl | rfl <;> simp [workLeft]⟩
  | publish t =>
    rw [hpc] at hw; simp only at hw
    have hs : step σ (.worker b) = some { σ with worker := .unlock t } := by simp only [step, workerStep, hpc]
    exact ⟨_, _, hs, rfl, rfl, rfl, rfl, inv_step hi hs, by rcases hw with rfl | rfl <;> simp [workLeft]⟩
  | unlock t =>
    rw [hpc] at hw; simp only at hw
    have hs : step σ (.worker b) = some { σ with worker := workNext t } := by simp only [step, workerStep, hpc]
    exact ⟨_, _, hs, rfl, rfl, rfl, rfl, inv_step hi hs, by rcases hw with rfl | rfl <;> simp [workLeft, workNext]⟩

theorem bus_holds_pub {c0 m0} {σ : St} (hi : Inv c0 m0 σ) {s : Sock} (h : busHolds s σ.bus = true) :
    σ.registered = true ∧ (s = .serverPub ∨ s = .clientPub) := by
  have hb := hi.bus
  unfold BusOk at hb
  cases hk : σ.bus <;> rw [hk] at hb h <;> simp [busHolds] at h
  · subst h; exact ⟨hb.1, hb.2.1⟩
  · subst h; exact hb

theorem worker_drains_lock {c0 m0} (n : Nat) (σ : St) (hp : Inv c0 m0 σ ∧ σ.owner = .lock n) :
    (ownerStep σ).isSome = true ∨ ∀ b, ∃ σ', step σ (.worker b) = some σ' ∧ (Inv c0 m0 σ' ∧ σ'.owner = .lock n) ∧
      workLeft σ'.worker < workLeft σ.worker := by
  obtain ⟨hi, ho⟩ := hp
  have hnb : busHolds (order n) σ.bus = false := by
    cases hb : busHolds (order n) σ.bus
    · rfl
    · have := hi.reg; rw [(bus_holds_pub hi hb).1, ho] at this; cases this
  cases hh : workerHolds (order n) σ.worker with
  | false => left; simp [ownerStep, ho, hh, hnb]
  | true =>
    right; intro b
    obtain ⟨k, σ', hs, hk, ho', _, _, hi', hlt⟩ := worker_inside hi _ hh b
    exact ⟨σ', hs, ⟨hi', by rw [ho', ho]⟩, by rw [hk]; exact hlt⟩

theorem worker_drains_join {c0 m0} (σ : St) (hp : Inv c0 m0 σ ∧ σ.owner = .joining) :
    (ownerStep σ).isSome = true ∨ ∀ b, ∃ σ', step σ (.worker b) = some σ' ∧ (Inv c0 m0 σ' ∧ σ'.owner = .joining) ∧
      workLeft σ'.worker < workLeft σ.worker := by
  obtain ⟨hi, ho⟩ := hp
  have hr : σ.shouldRun = false := by have := hi.owner; unfold OwnerOk at this; rw [ho] at this; exact this
  have inside : ∀ s, workerHolds s σ.worker = true → ∀ b, ∃ σ', step σ (.worker b) = some σ' ∧
      (Inv c0 m0 σ' ∧ σ'.owner = .joining) ∧ workLeft σ'.worker < workLeft σ.worker := by
    intro s hh b
    obtain ⟨k, σ', hs, hk, ho', _, _, hi', hlt⟩ := worker_inside hi _ hh b
    exact ⟨σ', hs, ⟨hi', by rw [ho', ho]⟩, by rw [hk]; exact hlt⟩
  have hw := hi.work
  unfold WorkOk at hw
  cases hpc : σ.worker with
  | gone => left; simp [ownerStep, ho, hpc]
  | top =>
    right; intro b
    have hs : step σ (.worker b) = some { σ with worker := .gone } := by simp [step, workerStep, hpc, hr]
    exact ⟨_, hs, ⟨inv_step hi hs, ho⟩, by simp [workLeft]⟩
  | want s =>
    rw [hpc] at hw; simp only at hw
    right; intro b
    have hnb : busHolds s σ.bus = false := by
      cases hb : busHolds s σ.bus
      · rfl
      · rcases (bus_holds_pub hi hb).2 with rfl | rfl <;> simp at hw
    have hs : step σ (.worker b) = some { σ with worker := .check s } := by
      simp [step, workerStep, hpc, hnb, ho, ownerHolds, ownerHeld]
    exact ⟨_, hs, ⟨inv_step hi hs, ho⟩, by rcases hw with rfl | rfl <;> simp [workLeft]⟩
  | check s => right; rw [← hpc]; exact inside s (by simp [hpc, workerHolds])
  | receive s => right; rw [← hpc]; exact inside s (by simp [hpc, workerHolds])
  | publish s => right; rw [← hpc]; exact inside s (by simp [hpc, workerHolds])
  | unlock s => right; rw [← hpc]; exact inside s (by simp [hpc, workerHolds])

theorem busLeft_le (b : BusPc) : busLeft b ≤ 10 := by
  cases b <;> first | simp [busLeft]; done | (rename_i s; cases s <;> simp [busLeft])

theorem workLeft_le (k : WorkPc) : workLeft k ≤ 11 := by
  cases k <;> first | simp [workLeft]; done | (rename_i s; cases s <;> simp [workLeft])

end LP.LinkConc
