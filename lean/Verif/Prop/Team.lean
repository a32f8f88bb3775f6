import Verif.Lemma.TeamPlay
import Verif.Prop.BusOrder
/-!
# C131: several threads in `Start` of the root bus

All theorems quantify over any number of threads that call `Start`, and every interleaving of them with any number of
calls by other threads and by callbacks.
-/
namespace LP.Team
open LP.Bus

/-- Two threads are never distributing messages at the same time; in particular two callbacks never run at the same
time. -/
theorem C131_one_distributes (σ : St) (h : Reachable σ) (i j : Nat) (p q : Pos) (hi : σ.team[i]? = some p)
    (hj : σ.team[j]? = some q) (hp : Distributing p) (hq : Distributing q) : i = j := by
  have hr : ∀ r : Pos, Distributing r → ∃ x, r = .run x ∧ x ≠ .asleep := by
    intro r hr
    cases r with
    | run x => refine ⟨x, rfl, ?_⟩; rintro rfl; exact hr
    | _ => exact hr.elim
  obtain ⟨x, rfl, hx⟩ := hr p hp
  obtain ⟨y, rfl, hy⟩ := hr q hq
  have h1 := h.tinv.excl i x hi hx
  rw [h.tinv.excl j y hj hy, Option.some.injEq] at h1
  exact h1.symm

/-- One thread is in a callback, the other one was woken up and waits for the mutex; a message was published meanwhile. -/
example : ∃ σ p q, Reachable σ ∧ σ.team[0]? = some p ∧ σ.team[1]? = some q ∧ Distributing p ∧ InCallback p ∧ Inside q ∧
    σ.base.w.queue.length = 1 ∧ σ.base.published.length = 2 := by
  obtain ⟨σ, h, e⟩ := play_obs (bs "r") 2 (setup ++ both ++ publication ++ go 1 1 ++ [.notify (some 0), .lock 0] ++ go 0 6 ++
    publication ++ [.notify (some 1)]) (fun σ => (tags σ, σ.base.w.queue.length, σ.base.published.length)) ([12, 2], 1, 2)
    (by decide +kernel)
  simp only [Prod.mk.injEq] at e
  obtain ⟨p, hp, tp⟩ := tags_get e.1 0 12 rfl
  obtain ⟨q, hq, tq⟩ := tags_get e.1 1 2 rfl
  refine ⟨σ, p, q, h, hp, hq, (tag_inCallback tp).2.1, (tag_inCallback tp).1, ?_, e.2.1, e.2.2⟩
  cases q <;> first | exact trivial | cases tq

theorem batch_at {σ : St} (h : TInv σ) : (σ.team.map batchOf).flatten = (at_ σ).batch := by
  have none_ : ∀ (p : Pos), (∀ x, p = .run x → x = .asleep) → batchOf p = [] := by
    intro p hp
    cases p with
    | run x => rw [hp x rfl]; rfl
    | _ => rfl
  have flat : ∀ l : List Pos, (∀ (i : Nat) (p : Pos), l[i]? = some p → batchOf p = []) → (l.map batchOf).flatten = [] := by
    intro l
    induction l with
    | nil => intro _; rfl
    | cons x l ih =>
      intro hl
      rw [List.map_cons, List.flatten_cons, hl 0 x rfl, ih (fun i p hp => hl (i + 1) p (by simpa using hp))]; rfl
  have one : ∀ (l : List Pos) (k : Nat) (p : Pos), l[k]? = some p →
      (∀ (i : Nat) (q : Pos), l[i]? = some q → i ≠ k → batchOf q = []) → (l.map batchOf).flatten = batchOf p := by
    intro l
    induction l with
    | nil => intro k p hk; simp at hk
    | cons x l ih =>
      intro k p hk hl
      cases k with
      | zero =>
        simp at hk; subst hk
        rw [List.map_cons, List.flatten_cons, flat l (fun i q hq => hl (i + 1) q (by simpa using hq) (by omega))]; simp
      | succ k =>
        rw [List.map_cons, List.flatten_cons, hl 0 x rfl (by omega),
          ih k p (by simpa using hk) (fun i q hq hne => hl (i + 1) q (by simpa using hq) (by omega))]; rfl
  have other : ∀ (i : Nat) (q : Pos), σ.team[i]? = some q → σ.owner ≠ some i → batchOf q = [] := by
    intro i q hq hne
    refine none_ q (fun x hx => ?_)
    apply Classical.byContradiction
    intro hn
    subst hx
    exact hne (h.excl i x hq hn)
  cases ho : σ.owner with
  | none => rw [at_none ho]; exact flat _ (fun i q hq => other i q hq (by rw [ho]; simp))
  | some k =>
    obtain ⟨p, hp, _, _⟩ := h.own k ho
    rw [at_some ho hp, one _ k _ hp (fun i q hq hne => other i q hq (by rw [ho, ne_eq, Option.some.injEq]; omega))]
    cases p <;> rfl

/-- Nothing is lost between the threads and nothing is taken twice: at every moment the published messages are, in
publication order, those taken up, those taken out of the queue by some thread but not yet taken up, and those still
queued. -/
theorem C131_conserved (σ : St) (h : Reachable σ) : ∃ taken, taken.length = σ.base.fates.length ∧
    σ.base.published = taken ++ (σ.team.map batchOf).flatten ++ σ.base.w.queue := by
  have hi := h.tinv.inv
  rw [batch_at h.tinv]
  refine ⟨σ.base.published.take σ.base.fates.length, ?_, ?_⟩
  · rw [List.length_take]; have : σ.base.fates.length ≤ σ.base.published.length := hi.len; omega
  · have : σ.base.published.drop σ.base.fates.length = (at_ σ).batch ++ σ.base.w.queue := hi.split
    rw [List.append_assoc, ← this, List.take_append_drop]

/-- Whoever distributes, a subscriber gets each message at most once and in the order of publication. -/
theorem C131_received_increasing (σ : St) (s : Nat) (h : Reachable σ) :
    (received s σ.base.log).Pairwise (· < ·) := by
  unfold received
  rw [List.pairwise_map]
  refine (h.tinv.inv.strict.sublist List.filter_sublist).imp_of_mem ?_
  intro a b ha hb hab
  have h1 := (List.mem_filter.1 ha).2
  have h2 := (List.mem_filter.1 hb).2
  simp only [decide_eq_true_eq] at h1 h2
  exact hab (h1.trans h2.symm)

/-- Every callback was called with a message that had been published under a topic that matches. -/
theorem C131_no_spurious (σ : St) (h : Reachable σ) (d : Delivery) (hd : d ∈ σ.base.log) :
    σ.base.published[d.idx]? = some d.msg ∧ TopicRule (σ.base.w.sub d.sub).topic d.msg.topic :=
  ⟨(h.tinv.inv.log d hd).2.2.1, (antMatches_iff _ _).1 (h.tinv.inv.log d hd).2.2.2⟩

/-- All subscribers of the hierarchy see one order of the messages. -/
theorem C131_one_order (σ : St) (h : Reachable σ) (s s1 s2 s' i j : Nat) (hne : i ≠ j)
    (h1 : Before σ.base.log s i s' j) : ¬ Before σ.base.log s1 j s2 i := by
  intro h2
  have a := before_le (σ := view σ) h.tinv.inv h1
  have b := before_le (σ := view σ) h.tinv.inv h2
  omega

/-- A subscriber that stays registered with a callback on a bus that stays running together with all its ancestors gets
every matching message that was not yet taken up at the beginning, once the bus is idle: the threads do not lose messages
to each other. -/
theorem C131_stable_receives_all (σ σ' : St) (es : List Ev) (s : Nat) (h : Reachable σ) (hs : s < σ.base.w.ns)
    (hl : Throughout (fun τ => Live τ.base.w s) σ es) (hc : ∀ i, .go i .throwing ∉ es) (he : exec σ es = .to σ')
    (hidle : Idle σ') :
    (received s σ'.base.log).filter (fun i => decide (σ.base.fates.length ≤ i)) =
      due (σ'.base.w.sub s).topic σ'.base.published σ.base.fates.length σ'.base.published.length := by
  have hi := h.tinv
  have hi' := tinv_exec hi he
  have hx := live_texec (k := σ.base.fates.length) hi (live_start hi.inv hs) hl (by
    intro e hm
    cases e with
    | go i c => cases c <;> first | rfl | exact absurd hm (hc i)
    | _ => rfl) he
  have hnd : ¬ Distributing (.run (at_ σ')) := by
    unfold at_
    cases ho : σ'.owner with
    | none => exact id
    | some k =>
      obtain ⟨p, hp, _⟩ := hi'.own k ho
      simp only [hp]
      exact hidle.2 _ (List.mem_of_getElem? hp)
  have hst : (at_ σ').stack = [] ∧ (at_ σ').batch = [] := by
    generalize at_ σ' = p at hnd
    cases p <;> first | exact ⟨rfl, rfl⟩ | exact absurd trivial hnd
  have hcount : σ'.base.published.length = σ'.base.fates.length := by
    have h1 := congrArg List.length (show σ'.base.published.drop σ'.base.fates.length = (at_ σ').batch ++ σ'.base.w.queue from hi'.inv.split)
    rw [hst.2, hidle.1] at h1
    simp only [List.length_drop, List.append_nil, List.length_nil] at h1
    have h2 : σ'.base.fates.length ≤ σ'.base.published.length := hi'.inv.len
    omega
  have hg := hx.got
  rw [show (view σ').phase.stack = [] from hst.1, pendS_nil] at hg
  rw [hcount]
  exact hg

/-- Two threads take turns: each distributes one of two messages; the subscriber on the child bus gets both. -/
example : ∃ σ σ', Reachable σ ∧ 1 < σ.base.w.ns ∧ Throughout (fun τ => Live τ.base.w 1) σ relay ∧
    (∀ i, .go i .throwing ∉ relay) ∧ exec σ relay = .to σ' ∧ Idle σ' ∧ received 1 σ'.base.log = [0, 1] ∧
    received 0 σ'.base.log = [0, 1] := by
  obtain ⟨σ, σ', h, he, e⟩ := play_obs2 (bs "r") 2 (setup ++ both) relay
    (fun σ σ' => (decide (1 < σ.base.w.ns) && passes (fun τ => liveChild 1 (bs "c") τ.base) σ relay && σ'.base.w.queue.isEmpty,
      tags σ', received 1 σ'.base.log, received 0 σ'.base.log))
    (true, [3, 3], [0, 1], [0, 1]) (by decide +kernel)
  simp only [Prod.mk.injEq, Bool.and_eq_true, decide_eq_true_eq] at e
  obtain ⟨⟨⟨e1, e2⟩, e3⟩, e4, e5, e6⟩ := e
  refine ⟨σ, σ', h, e1, passes_throughout (fun τ => liveChild_live τ.base) e2, ?_, he, ⟨by simpa using e3, ?_⟩, e5, e6⟩
  · intro i; simp [relay, publication, go]
  · intro p hp
    have : tag p ∈ tags σ' := List.mem_map_of_mem hp
    rw [e4] at this
    have : tag p = 3 := by simpa using this
    rw [tag_asleep this]; exact id

/-- `Start` of the root inside a callback is undefined behaviour (the thread locks `mNotifierMutex`, which it owns), and
nothing else here is. -/
theorem C131_undefined_iff (σ : St) (e : Ev) : step σ e = .undefined ↔
    ∃ i p, e = .start i ∧ σ.team[i]? = some p ∧ InCallback p := by
  constructor
  · intro h
    cases e with
    | start i =>
      simp only [step] at h
      split at h <;> try contradiction
      rename_i hi
      exact ⟨i, _, rfl, hi, trivial⟩
    | lock i => simp only [step] at h; split at h <;> contradiction
    | go i c =>
      simp only [step] at h
      split at h <;> try contradiction
      split at h <;> contradiction
    | wake i t => simp only [step] at h; split at h <;> contradiction
    | notify k =>
      simp only [step] at h
      split at h <;> try contradiction
      split at h
      · split at h <;> contradiction
      · split at h <;> contradiction
    | api a =>
      simp only [step] at h
      split at h <;> try contradiction
      split at h <;> contradiction
  · rintro ⟨i, p, rfl, hi, hp⟩
    cases p with
    | run x =>
      cases x with
      | visit m st cb b =>
        cases cb with
        | true => simp only [step, hi]
        | false => exact hp.elim
      | _ => exact hp.elim
    | _ => exact hp.elim

/-- The threads never block each other for good: as long as some thread is in `Start`, one of them can go on by itself. -/
theorem C131_never_stuck (σ : St) (h : Reachable σ) (i : Nat) (p : Pos) (hi : σ.team[i]? = some p) (hp : Inside p) :
    ∃ e σ', e.own = true ∧ step σ e = .to σ' := by
  obtain ⟨e, σ', h1, _, h2⟩ := enabled h.tinv hi hp
  exact ⟨e, σ', h1, h2⟩

/-- After `Stop` (and before another `Start`) the threads together make a bounded number of steps, in whatever order they
and the other users of the bus come, as long as nothing new is created; the bound depends on the state and on how many
messages are queued meanwhile. -/
theorem C131_leave_within_bound (σ : St) (h : Reachable σ) (hs : (σ.base.w.bus 0).running = false) :
    ∃ A B, ∀ es σ', (∀ e ∈ es, e.tame = true) → exec σ es = .to σ' →
      es.countP Ev.own ≤ A + B * es.countP Ev.queues := by
  refine ⟨left σ, 2 * unit σ.base.w, fun es σ' ht he => ?_⟩
  have := leave_bound h.tinv hs ht he
  omega

/-- Left alone, all of them leave. -/
theorem C131_all_leave (σ : St) (h : Reachable σ) (hs : (σ.base.w.bus 0).running = false) :
    ∃ es σ', (∀ e ∈ es, e.own = true) ∧ exec σ es = .to σ' ∧ ∀ p ∈ σ'.team, p = .out := by
  obtain ⟨es, σ', h1, h2, h3⟩ := all_leave h.tinv hs
  exact ⟨es, σ', fun e he => (h1 e he).1, h2, h3⟩

/-- A callback is running in thread 0 when the bus is stopped, thread 1 is asleep, thread 2 outside; two messages are
published, one of them queued. -/
example : ∃ σ p q, Reachable σ ∧ (σ.base.w.bus 0).running = false ∧ σ.team = [p, q, .out] ∧ InCallback p ∧ Inside q ∧
    step σ (.start 0) = .undefined ∧ σ.base.w.queue.length = 1 := by
  obtain ⟨σ, h, e⟩ := play_obs (bs "r") 3 (setup ++ both ++ publication ++ go 1 1 ++ [.notify (some 0), .lock 0] ++ go 0 6 ++
    publication ++ [.api (.stop 0)]) (fun σ => (tags σ, (σ.base.w.bus 0).running, σ.base.w.queue.length)) ([12, 3, 0], false, 1)
    (by decide +kernel)
  simp only [Prod.mk.injEq] at e
  obtain ⟨e1, e2, e3⟩ := e
  obtain ⟨p, hp, tp⟩ := tags_get e1 0 12 rfl
  obtain ⟨q, hq, tq⟩ := tags_get e1 1 3 rfl
  obtain ⟨r, hr, tr⟩ := tags_get e1 2 0 rfl
  have hlen : σ.team.length = 3 := by have := congrArg List.length e1; simpa [tags] using this
  refine ⟨σ, p, q, h, e2, ?_, (tag_inCallback tp).1, by rw [tag_asleep tq]; exact trivial,
    (C131_undefined_iff σ _).2 ⟨0, p, rfl, hp, (tag_inCallback tp).1⟩, e3⟩
  rw [tag_out tr] at hr
  match ht : σ.team, hlen with
  | [a, b, c], _ => rw [ht] at hp hq hr; simp at hp hq hr; rw [hp, hq, hr]

/-- A `Stop` is undone by a `Start` in another thread: if no thread has looked at the flag in between, everything goes on
as if `Stop` had not been called. -/
theorem C131_stop_overtaken (σ : St) (j : Nat) (h : Reachable σ) (hj : σ.team[j]? = some .out) (es : List Ev) :
    exec σ (.api (.stop 0) :: .start j :: es) = exec σ (.start j :: es) := by
  have hw : 0 < σ.base.w.nb := h.tinv.inv.wok.root
  have h1 : step σ (.api (.stop 0)) = .to { σ with base := { σ.base with w := stop 0 σ.base.w, phase := .off } } := by
    have : σ.team.all (fun p => (Bus.step { σ.base with phase := p.phase } (.stop 0)).isSome) = true := by
      rw [List.all_eq_true]; intro p _; simp [Bus.step, hw]
    have hb : Bus.step { σ.base with phase := .off } (.stop 0) = some { σ.base with w := stop 0 σ.base.w, phase := .off } := by
      simp only [Bus.step, hw, if_true]
    unfold step
    simp only [show free (.stop 0) = true from rfl, Bool.true_and]
    rw [if_pos this, hb]
  have h2 : setRunning 0 (stop 0 σ.base.w) = setRunning 0 σ.base.w := by
    simp only [setRunning, stop, World.setBus]
    congr 1
    funext i
    split <;> simp_all
  rw [exec, h1]
  simp only [exec, step, hj, h2, ← h.tinv.off]

/-- Thread 0 is asleep in `Start`, thread 1 outside. `Stop`, and `Start` in thread 1: both threads are in `Start` and
stay there, asleep, with the bus running. -/
example : ∃ σ σ', Reachable σ ∧ σ.team[1]? = some .out ∧
    exec σ ([.api (.stop 0), .start 1, .lock 1] ++ go 1 3 ++ [.wake 0 true, .lock 0] ++ go 0 6) = .to σ' ∧
    σ'.team[0]? = some (.run .asleep) ∧ σ'.team[1]? = some (.run .asleep) ∧ (σ'.base.w.bus 0).running = true := by
  obtain ⟨σ, σ', h, he, e⟩ := play_obs2 (bs "r") 2 (setup ++ [.start 0, .lock 0] ++ go 0 3)
    ([.api (.stop 0), .start 1, .lock 1] ++ go 1 3 ++ [.wake 0 true, .lock 0] ++ go 0 6)
    (fun σ σ' => (tags σ, tags σ', (σ'.base.w.bus 0).running)) ([3, 0], [3, 3], true) (by decide +kernel)
  simp only [Prod.mk.injEq] at e
  obtain ⟨p, hp, tp⟩ := tags_get e.1 1 0 rfl
  obtain ⟨q, hq, tq⟩ := tags_get e.2.1 0 3 rfl
  obtain ⟨r, hr, tr⟩ := tags_get e.2.1 1 3 rfl
  exact ⟨σ, σ', h, by rw [hp, tag_out tp], he, by rw [hq, tag_asleep tq], by rw [hr, tag_asleep tr], e.2.2⟩

/-- An exception thrown by a callback costs the thread in which it is thrown, and the rest of its batch; the other threads
stay where they are, the bus stays started, what is queued stays queued, and the mutex is free for the next of them. -/
theorem C131_exception_spares_others (σ σ' : St) (i : Nat) (hs : step σ (.go i .throwing) = .to σ') :
    σ'.owner = none ∧ σ'.team = σ.team.set i .out ∧ (∃ p, σ.team[i]? = some p ∧ InCallback p) ∧
      σ'.base.w = σ.base.w ∧ σ'.base.log = σ.base.log := by
  simp only [step] at hs
  split at hs <;> try contradiction
  rename_i p hp hi
  split at hs <;> try contradiction
  rename_i τ hr
  cases hs
  simp only [rstep] at hr
  split at hr <;> try contradiction
  cases hr
  exact ⟨rfl, rfl, ⟨_, hi, trivial⟩, rfl, rfl⟩

/-- The callback of the first subscriber throws in thread 0, which leaves; thread 1 delivers the next message. -/
example : ∃ σ σ' σ'', Reachable σ ∧ step σ (.go 0 .throwing) = .to σ' ∧
    exec σ' (publication ++ [.notify (some 1), .lock 1] ++ go 1 22) = .to σ'' ∧
    σ''.base.log.map (fun d => (d.sub, d.idx)) = [(0, 0), (0, 1), (1, 1)] := by
  obtain ⟨σ, σ'', h, he, e⟩ := play_obs2 (bs "r") 2
    (setup ++ both ++ publication ++ go 1 1 ++ [.notify (some 0), .lock 0] ++ go 0 6)
    (.go 0 .throwing :: (publication ++ [.notify (some 1), .lock 1] ++ go 1 22))
    (fun _ σ' => σ'.base.log.map (fun d => (d.sub, d.idx))) [(0, 0), (0, 1), (1, 1)] (by decide +kernel)
  rw [exec] at he
  cases hs : step σ (.go 0 .throwing) with
  | cannot => simp [hs] at he
  | undefined => simp [hs] at he
  | to σ' => rw [hs] at he; exact ⟨σ, σ', σ'', h, hs, he, e⟩

end LP.Team
