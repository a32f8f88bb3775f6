import Verif.Lemma.CallbackException
import Verif.Lemma.BusLive
import Verif.Lemma.BusSub
import Verif.Prop.BusQueue
/-!
# C118: a callback that throws, and null callbacks

All theorems quantify over every interleaving of the bus thread with any number of calls by other threads and by
callbacks.
-/
namespace LP.Bus

/-! ## What an exception does -/

/-- An exception out of a callback ends `Run`: it leaves `Start` of the root, with all mutexes released. Nothing else
is cleaned up: all registrations, callbacks, names and flags are as before (so that `mShouldRun` of the root still says
running), and what is queued stays queued. The messages that were taken from the queue together with the current one and
come after it are lost. -/
theorem C118_exception_ends_run (σ τ : St) (h : step σ (.run .throwing) = some τ) :
    (∃ m st, σ.phase = .visit m st true σ.phase.batch) ∧ τ.phase = .off ∧ τ.w = σ.w ∧ τ.log = σ.log ∧
      τ.published = σ.published ∧ τ.fates = σ.fates ++ List.replicate σ.phase.batch.length .lost ∧
      ∀ b, holdsSubs b τ.phase = false ∧ holdsKids b τ.phase = false := by
  obtain ⟨m, st, batch, hp, e⟩ := throwing_cases h
  subst e
  refine ⟨⟨m, st, by rw [hp]; rfl⟩, rfl, rfl, rfl, rfl, ?_, fun b => ⟨rfl, rfl⟩⟩
  rw [hp]
  simp [Phase.batch, List.map_const']

/-- Until `Start` is called again nothing is delivered, and the queue collects whatever is published, in order. -/
theorem C118_silent_until_start (σ τ σ' : St) (as : List Act) (h : Reachable σ)
    (ht : step σ (.run .throwing) = some τ) (ha : .start ∉ as) (he : exec τ as = some σ') :
    σ'.log = σ.log ∧ σ'.phase = .off ∧
      ∃ ms, σ'.published = σ.published ++ ms ∧ σ'.w.queue = σ.w.queue ++ ms := by
  obtain ⟨_, hp, hw, hl, hpub, _, _⟩ := C118_exception_ends_run σ τ ht
  have := off_exec (inv_step h.inv ht) hp ha he
  rw [hl, hpub, hw] at this
  exact ⟨this.2.1, this.1, this.2.2.2⟩

/-- Whatever happens later, restarts included: the message whose callback threw reaches no further subscriber, and the
messages lost with it reach nobody. Every message number up to the last lost one keeps the recipients it had. -/
theorem C118_never_delivered (σ τ σ' : St) (as : List Act) (h : Reachable σ)
    (ht : step σ (.run .throwing) = some τ) (he : exec τ as = some σ') (i : Nat)
    (hi : i < σ.fates.length + σ.phase.batch.length) : recipients i σ'.log = recipients i σ.log := by
  obtain ⟨_, hp, _, hl, _, hf, _⟩ := C118_exception_ends_run σ τ ht
  obtain ⟨l, e, hm⟩ := later_exec (inv_step h.inv ht) hp he
  have : l.filter (fun d => d.idx = i) = [] := by
    rw [List.filter_eq_nil_iff]
    intro d hd
    have := hm d hd
    rw [hf, List.length_append, List.length_replicate] at this
    simp only [decide_eq_true_eq]
    omega
  rw [recipients, e, hl, List.filter_append, this, List.append_nil, recipients]

/-- In particular the lost messages have no recipient at all. -/
theorem C118_lost_reach_nobody (σ τ σ' : St) (as : List Act) (h : Reachable σ)
    (ht : step σ (.run .throwing) = some τ) (he : exec τ as = some σ') (i : Nat) (h1 : σ.fates.length ≤ i)
    (h2 : i < σ.fates.length + σ.phase.batch.length) : recipients i σ'.log = [] := by
  rw [C118_never_delivered σ τ σ' as h ht he i h2, recipients, List.map_eq_nil_iff, List.filter_eq_nil_iff]
  intro d hd
  have := (h.inv.log d hd).2.1
  simp only [decide_eq_true_eq]
  omega

/-- After a new `Start` the bus works on: a subscriber that stays registered and served has, when the bus has become
idle, received what it had received before the exception and then every matching message that was queued at that time or
published later, in order, and nothing else. -/
theorem C118_restart_goes_on (σ τ σ' : St) (as : List Act) (s : Nat) (h : Reachable σ)
    (ht : step σ (.run .throwing) = some τ) (hs : s < σ.w.ns) (hl : Throughout (fun ρ => Live ρ.w s) τ as)
    (hc : .run .throwing ∉ as) (he : exec τ as = some σ') (hidle : Idle σ') :
    received s σ'.log = received s σ.log ++
      due (σ.w.sub s).topic σ'.published (σ.fates.length + σ.phase.batch.length) σ'.published.length := by
  obtain ⟨_, hp, hw, hlog, _, hf, _⟩ := C118_exception_ends_run σ τ ht
  have hr : Reachable τ := h.exec (as := [.run .throwing]) (by simp [exec, ht])
  have hlen : τ.fates.length = σ.fates.length + σ.phase.batch.length := by
    rw [hf, List.length_append, List.length_replicate]
  have h29 := C29_stable_subscriber_receives_all τ σ' as s hr (hw ▸ hs) hl hc he hidle
  obtain ⟨l, e, hm⟩ := later_exec hr.inv hp he
  have ht' : (σ'.w.sub s).topic = (σ.w.sub s).topic := by
    rw [← hw]
    have : s < τ.w.ns := hw ▸ hs
    exact ((exec_induct (P := fun ρ => s < ρ.w.ns ∧ (ρ.w.sub s).topic = (τ.w.sub s).topic) (Q := fun _ => True)
      (fun ρ a ρ' hi' _ hP hst => by
        by_cases hc : ∃ c, a = .run c
        · obtain ⟨c, rfl⟩ := hc
          have hx := run_world hst
          rw [hx.2.2.1, hx.2.2.2.1]; exact hP
        · have hx := (step_external hi'.wok (fun c e => hc ⟨c, e⟩) hst).grows
          exact ⟨Nat.lt_of_lt_of_le hP.1 hx.2.1, (hx.2.2.2 s hP.1).2.trans hP.2⟩)
      hr.inv (fun _ _ => trivial) ⟨this, rfl⟩ he)).2
  rw [hlen, ht'] at h29
  rw [← h29, e, hlog]
  simp only [received, List.filter_append, List.map_append]
  have h1 : ((σ.log.filter (fun d => d.sub = s)).map Delivery.idx).filter
      (fun i => decide (σ.fates.length + σ.phase.batch.length ≤ i)) = [] := by
    rw [List.filter_eq_nil_iff]
    intro i hi
    obtain ⟨d, hd, rfl⟩ := List.mem_map.1 hi
    have := (h.inv.log d (List.mem_filter.1 hd).1).2.1
    simp only [decide_eq_true_eq]
    omega
  have h2 : ((l.filter (fun d => d.sub = s)).map Delivery.idx).filter
      (fun i => decide (σ.fates.length + σ.phase.batch.length ≤ i)) = (l.filter (fun d => d.sub = s)).map Delivery.idx := by
    rw [List.filter_eq_self]
    intro i hi
    obtain ⟨d, hd, rfl⟩ := List.mem_map.1 hi
    have := hm d (List.mem_filter.1 hd).1
    rw [hlen] at this
    simpa using this
  rw [h1, h2, List.nil_append]

/-! ## Null callbacks -/

/-- A datagram callback given as a null function is not the same as no callback: it is called, and the call throws. From
the moment a subscriber with such a callback is served, nothing is delivered to anyone before the next `Start`. -/
theorem C118_null_datagram_callback (σ σ' : St) (N : List Nat) (f : Nat) (as : List Act) (h : Reachable σ) (hf : f ∈ N)
    (hr : runningCb σ = some f) (hd : Doomed N σ as) (ha : .start ∉ as) (he : exec σ as = some σ') :
    σ'.log = σ.log ∧ (runningCb σ' = some f ∨ σ'.phase = .off) :=
  doomed_exec h.inv hf hr ha hd he

/-- Each `Start` of the root is ended by the first such call: however many null callbacks are registered and however many
messages they match, the number of calls of null callbacks in a whole execution is at most the number of `Start` calls. -/
theorem C118_one_null_call_per_start (name : Str) (σ₀ σ : St) (N : List Nat) (as : List Act)
    (h0 : initial name = some σ₀) (hd : Doomed N σ₀ as) (he : exec σ₀ as = some σ) :
    calls N σ.log ≤ starts as := by
  have hb : Bounded N 0 σ₀ := by
    unfold initial at h0
    split at h0 <;> cases h0
    exact .inl ⟨.inl rfl, Nat.le_refl _⟩
  have := bounded_exec (inv_initial h0) hb hd he
  rw [Nat.zero_add] at this
  rcases this with ⟨_, h⟩ | h
  · exact h
  · omega

/-- A null message callback, in contrast, is no callback: the subscriber receives nothing until it is given another one,
and no exception can come from it, since it is never called. -/
theorem C118_null_message_callback (σ τ σ' : St) (as : List Act) (s : Nat) (h : Reachable σ)
    (hn : step σ (.setCb s none) = some τ) (ha : ∀ f, .setCb s f ∉ as) (he : exec τ as = some σ') :
    received s σ'.log = received s σ.log := by
  have hx := step_external h.inv.wok (fun c e => by cases e) hn
  have h0 : s < τ.w.ns ∧ (τ.w.sub s).cb = none := by
    simp only [step] at hn
    split at hn <;> cases hn
    rename_i hs
    simp [setCallback, World.setSub, hs]
  refine (exec_induct (P := fun ρ => (s < ρ.w.ns ∧ (ρ.w.sub s).cb = none) ∧ received s ρ.log = received s σ.log)
    (Q := fun a => ∀ f, a ≠ .setCb s f) ?_ (inv_step h.inv hn) (fun a hm f e => ha f (e ▸ hm))
    ⟨h0, by rw [hx.log]⟩ he).2
  intro ρ a ρ' hi hq hP hs
  exact mute_step hi hq hP.1 hP.2 hs

/-! ## A run -/

/-- Callback 1 of the subscriber on the root throws on the first of two drained messages, while a third is queued; the
subscriber on the child misses the first two and gets the third after a restart. -/
example : ∃ σ τ σ', Reachable σ ∧ step σ (.run .throwing) = some τ ∧ σ.phase.batch.length = 1 ∧ σ.w.queue.length = 1 ∧
    Throughout (fun ρ => Live ρ.w 1) τ (.start :: thread 38) ∧ exec τ (.start :: thread 38) = some σ' ∧ Idle σ' ∧
    received 1 σ'.log = [2] ∧ recipients 0 σ'.log = [0] ∧ recipients 1 σ'.log = [] := by
  obtain ⟨σ, σ', _, h, he, e⟩ := play_obs2 (bs "r")
    (setup ++ publication ++ publication ++ [.start] ++ thread 7 ++ publication)
    (.run .throwing :: .start :: thread 38)
    (fun σ σ' => ((σ.phase.batch.length, σ.w.queue.length,
      (match step σ (.run .throwing) with
        | some τ => passes (liveChild 1 (bs "c")) τ (.start :: thread 38) | none => false)),
      (σ'.w.queue.isEmpty, (match σ'.phase with | .asleep => true | _ => false)), received 1 σ'.log,
      recipients 0 σ'.log, recipients 1 σ'.log))
    ((1, 1, true), (true, true), [2], [0], []) (by decide +kernel)
  simp only [Prod.mk.injEq] at e
  obtain ⟨⟨e1, e2, e3⟩, ⟨e4, e5⟩, e6, e7, e8⟩ := e
  simp only [exec] at he
  cases ht : step σ (.run .throwing) with
  | none => simp [ht] at he
  | some τ =>
    simp only [ht] at he e3
    have hp : σ'.phase = .asleep := by cases hp : σ'.phase <;> simp [hp] at e5 ⊢
    exact ⟨σ, τ, σ', h, ht, e1, e2, passes_throughout liveChild_live e3, he,
      ⟨by simpa using e4, by rw [hp]; rfl, by rw [hp]; simp⟩, e6, e7, e8⟩

/-- Test of `Doomed` for a concrete run. -/
def doomedB (N : List Nat) : St → List Act → Bool
  | _, [] => true
  | σ, a :: as => (match runningCb σ, a with
      | some f, .run c => !(N.contains f) || c == .throwing
      | _, _ => true) && match step σ a with
    | none => true
    | some σ' => doomedB N σ' as

theorem doomedB_doomed {N : List Nat} {σ : St} {as : List Act} (h : doomedB N σ as = true) : Doomed N σ as := by
  induction as generalizing σ with
  | nil => trivial
  | cons a as ih =>
    simp only [doomedB, Bool.and_eq_true] at h
    refine ⟨?_, fun σ' hs => ih (by have := h.2; rw [hs] at this; exact this)⟩
    intro f hf hr c e
    have := h.1
    rw [hr, e] at this
    simpa [hf] using this

/-- Callback 1 is null: two messages, two starts, two calls, and the bus thread is not running in the end. -/
example : ∃ σ₀ σ, initial (bs "r") = some σ₀ ∧
    Doomed [1] σ₀ (setup ++ publication ++ [.start] ++ thread 7 ++ [.run .throwing] ++ publication ++ [.start] ++ thread 7) ∧
    exec σ₀ (setup ++ publication ++ [.start] ++ thread 7 ++ [.run .throwing] ++ publication ++ [.start] ++ thread 7) =
      some σ ∧ calls [1] σ.log = 2 ∧ runningCb σ = some 1 := by
  cases h0 : initial (bs "r") with
  | none => exact absurd h0 (by decide +kernel)
  | some σ₀ =>
    have hb : (initial (bs "r")).bind (fun σ₀ => (exec σ₀ (setup ++ publication ++ [.start] ++ thread 7 ++
        [.run .throwing] ++ publication ++ [.start] ++ thread 7)).map (fun σ => (doomedB [1] σ₀ (setup ++ publication ++
        [.start] ++ thread 7 ++ [.run .throwing] ++ publication ++ [.start] ++ thread 7), calls [1] σ.log,
        runningCb σ))) = some (true, 2, some 1) := by decide +kernel
    rw [h0] at hb
    simp only [Option.bind_some, Option.map_eq_some_iff, Prod.mk.injEq] at hb
    obtain ⟨σ, he, h1, h2, h3⟩ := hb
    exact ⟨σ₀, σ, rfl, doomedB_doomed h1, he, h2, h3⟩

/-- The subscriber on the root is given a null message callback and a message passes. -/
example : ∃ σ τ σ', Reachable σ ∧ step σ (.setCb 0 none) = some τ ∧
    exec τ (publication ++ [.start] ++ thread 30) = some σ' ∧ received 0 σ'.log = [] ∧ received 1 σ'.log = [0] := by
  obtain ⟨σ, σ', _, h, he, e⟩ := play_obs2 (bs "r") setup (.setCb 0 none :: (publication ++ [.start] ++ thread 30))
    (fun _ σ' => (received 0 σ'.log, received 1 σ'.log)) ([], [0]) (by decide +kernel)
  simp only [Prod.mk.injEq] at e
  cases ht : step σ (.setCb 0 none) with
  | none => simp only [exec, ht] at he; contradiction
  | some τ =>
    simp only [exec, ht] at he
    exact ⟨σ, τ, σ', h, ht, he, e.1, e.2⟩

end LP.Bus
