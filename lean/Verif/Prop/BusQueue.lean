import Verif.Lemma.BusMore
/-!
# C28–C35, C40: the queue and the bus thread

All theorems quantify over every interleaving of the bus thread with any number of calls by other threads and by
callbacks.
-/
namespace LP.Bus

/-- A hierarchy with a child bus, a subscriber on each bus and a publisher on the child. -/
def setup : List Act :=
  [.createChild 0 (bs "c"), .createSub 0 (bs "t") (some 1), .createSub 1 (bs "/**/*") (some 2), .createPub 1 (bs "t")]
/-- One complete publication through the publisher. -/
def publication : List Act := [.pubPublish 0 (.value (.int 7)), .push 0]
/-- The bus thread takes steps. -/
def thread (n : Nat) : List Act := List.replicate n (.run .go)

/-! ## C28 -/

/-- At every moment the published messages are, in publication order, those taken up, those drained but not yet taken
up, and those still queued. -/
theorem C28_queue_conserved (σ : St) (h : Reachable σ) :
    ∃ taken, taken.length = σ.fates.length ∧ σ.published = taken ++ σ.phase.batch ++ σ.w.queue := by
  have hi := h.inv
  refine ⟨σ.published.take σ.fates.length, ?_, ?_⟩
  · rw [List.length_take]; have := hi.len; omega
  · rw [List.append_assoc, ← hi.split, List.take_append_drop]

/-- The message in distribution is the one taken up last. -/
theorem C28_current_is_last_taken (σ : St) (h : Reachable σ) (m : BMsg) (st : List Frame) (cb : Bool) (b : List BMsg)
    (hp : σ.phase = .visit m st cb b) : σ.published[σ.fates.length - 1]? = some m ∧ 0 < σ.fates.length :=
  ⟨(h.inv.cur _ _ _ _ hp).2, (h.inv.cur _ _ _ _ hp).1⟩

/-- As long as the root is never stopped and no callback throws, every message taken up is distributed. -/
theorem C28_nothing_discarded (name : Str) (as : List Act) (σ : St) (h : play name as = some σ) (h1 : .stop 0 ∉ as)
    (h2 : .run .throwing ∉ as) : ∀ f ∈ σ.fates, f = .distributed := by
  unfold play at h
  cases h0 : initial name with
  | none => simp [h0] at h
  | some σ₀ =>
    simp [h0] at h
    exact (exec_induct (P := Healthy) (Q := fun a => a ≠ .stop 0 ∧ a ≠ .run .throwing)
      (fun σ a σ' hi hq hp hs => healthy_step hi hq hp hs) (inv_initial h0)
      (fun a hm => ⟨fun e => h1 (e ▸ hm), fun e => h2 (e ▸ hm)⟩) (healthy_initial h0) h).2

/-- After `Stop`, unless the bus thread was just about to take over the queue, only messages drained before can be
discarded: the queue keeps all its messages, until `Start` is called again. -/
theorem C28_stop_keeps_queue (σ σ' : St) (as : List Act) (h : Reachable σ) (hs : (σ.w.bus 0).running = false)
    (hd : σ.phase ≠ .drain) (ha : .start ∉ as) (he : exec σ as = some σ') :
    σ.w.queue <+: σ'.w.queue ∧ σ'.fates.length ≤ σ.fates.length + σ.phase.batch.length := by
  have := stopped_exec h.inv ha ⟨hs, hd⟩ he
  exact ⟨this.2.1, by omega⟩

/-- In the excepted window, between the test of the flag (Bus.cpp:151) and the drain (Bus.cpp:156), a `Stop` makes the
bus thread take over all queued messages and discard every one of them undelivered. -/
theorem C28_stop_window_discards_queue (σ : St) (h : Reachable σ) (hd : σ.phase = .drain) :
    ∃ n σ', exec σ (.stop 0 :: List.replicate n (.run .go)) = some σ' ∧ σ'.phase = .off ∧ σ'.w.queue = [] ∧
      σ'.log = σ.log ∧ σ'.fates = σ.fates ++ List.replicate σ.w.queue.length .skipped := by
  have h0 := h.inv.wok.root
  have hst : (({ σ with w := { stop 0 σ.w with queue := [] } } : St).w.bus 0).running = false := by
    simp [stop, World.setBus]
  refine ⟨σ.w.queue.length + 3, ⟨{ stop 0 σ.w with queue := [] }, .off, σ.inflight, σ.toNotify, σ.published,
    σ.fates ++ List.replicate σ.w.queue.length .skipped, σ.log⟩, ?_, rfl, ?_, rfl, rfl⟩
  · have := skip_batch { σ with w := { stop 0 σ.w with queue := [] } } hst σ.w.queue
    simp only [exec, step, h0, if_true]
    rw [show σ.w.queue.length + 3 = (σ.w.queue.length + 2) + 1 from rfl, List.replicate_succ]
    simp only [exec, step, rstep, hd]
    exact this
  · rfl

example : ∃ σ, Reachable σ ∧ (σ.fates.length, σ.phase.batch.length, σ.w.queue.length) = (1, 1, 1) := by
  obtain ⟨σ, _, h, e⟩ := play_obs (bs "r") (setup ++ publication ++ publication ++ [.start] ++ thread 7 ++ publication)
    (fun σ => (σ.fates.length, σ.phase.batch.length, σ.w.queue.length)) (1, 1, 1) (by decide +kernel)
  exact ⟨σ, h, e⟩
example : ∃ σ, play (bs "r") (setup ++ publication ++ [.start] ++ thread 12) = some σ ∧ σ.fates.length = 1 := by
  obtain ⟨σ, h, _, e⟩ := play_obs (bs "r") (setup ++ publication ++ [.start] ++ thread 12)
    (fun σ => σ.fates.length) 1 (by decide +kernel)
  exact ⟨σ, h, e⟩
example : ∃ σ, Reachable σ ∧ ((σ.w.bus 0).running, σ.phase.batch.length, σ.w.queue.length) = (false, 1, 1) := by
  obtain ⟨σ, _, h, e⟩ := play_obs (bs "r")
    (setup ++ publication ++ publication ++ [.start] ++ thread 7 ++ publication ++ [.stop 0])
    (fun σ => ((σ.w.bus 0).running, σ.phase.batch.length, σ.w.queue.length)) (false, 1, 1) (by decide +kernel)
  exact ⟨σ, h, e⟩
/-- The window exists with messages queued. -/
theorem C28_stop_window_reachable : ∃ σ, Reachable σ ∧ σ.phase = .drain ∧ σ.w.queue.length = 2 := by
  obtain ⟨σ, _, h, e⟩ := play_obs (bs "r") (setup ++ publication ++ publication ++ [.start] ++ thread 3)
    (fun σ => ((match σ.phase with | .drain => true | _ => false), σ.w.queue.length)) (true, 2) (by decide +kernel)
  refine ⟨σ, h, ?_, (Prod.mk.inj e).2⟩
  have := (Prod.mk.inj e).1
  cases hp : σ.phase <;> simp [hp] at this ⊢

/-! ## C29 -/

/-- A subscriber that stays registered with a callback on a bus that stays running together with all its ancestors has
at any moment received, from the messages not yet taken up at the beginning, a prefix of those matching its topic, in
publication order and each once. -/
theorem C29_stable_subscriber_receives_in_order (σ σ' : St) (as : List Act) (s : Nat) (h : Reachable σ)
    (hs : s < σ.w.ns) (hl : Throughout (fun τ => Live τ.w s) σ as) (hc : .run .throwing ∉ as)
    (he : exec σ as = some σ') :
    (received s σ'.log).filter (fun i => decide (σ.fates.length ≤ i)) <+:
      due (σ'.w.sub s).topic σ'.published σ.fates.length σ'.published.length := by
  have hi := h.inv
  have hx := live_exec hi (live_start hi hs) hl hc he
  rw [hx.got]
  exact due_prefix (Nat.le_trans (Nat.sub_le _ _) (inv_exec hi he).len)

/-- When the bus is idle it has received all of them. -/
theorem C29_stable_subscriber_receives_all (σ σ' : St) (as : List Act) (s : Nat) (h : Reachable σ) (hs : s < σ.w.ns)
    (hl : Throughout (fun τ => Live τ.w s) σ as) (hc : .run .throwing ∉ as) (he : exec σ as = some σ')
    (hidle : Idle σ') :
    (received s σ'.log).filter (fun i => decide (σ.fates.length ≤ i)) =
      due (σ'.w.sub s).topic σ'.published σ.fates.length σ'.published.length := by
  have hi := h.inv
  have hx := live_exec hi (live_start hi hs) hl hc he
  rw [hx.got]
  have hst : σ'.phase.stack = [] := by
    cases hp : σ'.phase <;> first | rfl | exact absurd hp (hidle.2.2 _ _ _ _)
  have := (inv_exec hi he).count
  rw [hidle.1, hidle.2.1] at this
  rw [hst, pendS_nil]
  simp only [List.length_nil, Nat.add_zero] at this
  rw [this]; rfl

/-- What a subscriber receives is strictly increasing: each message at most once, in publication order, whatever
else happens (also for subscribers that are deleted or stopped in between). -/
theorem C29_received_increasing (σ : St) (s : Nat) (h : Reachable σ) : (received s σ.log).Pairwise (· < ·) := by
  have hi := h.inv
  unfold received
  rw [List.pairwise_map]
  refine (hi.strict.sublist List.filter_sublist).imp_of_mem ?_
  intro a b ha hb hab
  have h1 := (List.mem_filter.1 ha).2
  have h2 := (List.mem_filter.1 hb).2
  simp only [decide_eq_true_eq] at h1 h2
  exact hab (h1.trans h2.symm)

/-- A stable subscriber on the child bus while two messages pass and the bus becomes idle. -/
example : ∃ σ σ', Reachable σ ∧ 1 < σ.w.ns ∧
    Throughout (fun τ => Live τ.w 1) σ (publication ++ publication ++ thread 41) ∧
    exec σ (publication ++ publication ++ thread 41) = some σ' ∧ Idle σ' ∧ received 1 σ'.log = [0, 1] := by
  obtain ⟨σ, σ', _, h, he, e⟩ := play_obs2 (bs "r") (setup ++ [.start]) (publication ++ publication ++ thread 41)
    (fun σ σ' => (decide (1 < σ.w.ns), passes (liveChild 1 (bs "c")) σ (publication ++ publication ++ thread 41),
      σ'.w.queue.isEmpty, (match σ'.phase with | .asleep => true | _ => false), received 1 σ'.log))
    (true, true, true, true, [0, 1]) (by decide +kernel)
  simp only [Prod.mk.injEq, decide_eq_true_eq] at e
  obtain ⟨e1, e2, e3, e4, e5⟩ := e
  have hp : σ'.phase = .asleep := by cases hp : σ'.phase <;> simp [hp] at e4 ⊢
  exact ⟨σ, σ', h, e1, passes_throughout liveChild_live e2, he,
    ⟨by simpa using e3, by rw [hp]; rfl, by rw [hp]; simp⟩, e5⟩

/-! ## C30 -/

/-- Every delivery is of a message published before, to a subscriber whose topic matches; the message was taken up
for distribution and not discarded. -/
theorem C30_no_spurious_delivery (σ : St) (h : Reachable σ) (d : Delivery) (hd : d ∈ σ.log) :
    d.sub < σ.w.ns ∧ σ.published[d.idx]? = some d.msg ∧ TopicRule (σ.w.sub d.sub).topic d.msg.topic ∧
      σ.fates[d.idx]? = some .distributed := by
  have := h.inv.log d hd
  exact ⟨this.1, this.2.2.1, (antMatches_iff _ _).1 this.2.2.2, h.honest.2 d hd⟩

/-- No subscriber receives more messages than were published. -/
theorem C30_no_extra_copies (σ : St) (h : Reachable σ) (s : Nat) :
    (received s σ.log).length ≤ σ.published.length := by
  have h1 := C29_received_increasing σ s h
  have h2 : ∀ i ∈ received s σ.log, i < σ.published.length := by
    intro i hi
    obtain ⟨d, hd, rfl⟩ := List.mem_map.1 hi
    exact (List.getElem?_eq_some_iff.1 (C30_no_spurious_delivery σ h d (List.mem_filter.1 hd).1).2.1).1
  exact increasing_length h1 h2

example : ∃ σ, Reachable σ ∧ σ.log.map (fun d => (d.sub, d.idx)) = [(0, 0), (1, 0), (0, 1), (1, 1)] := by
  obtain ⟨σ, _, h, e⟩ := play_obs (bs "r") (setup ++ publication ++ publication ++ [.start] ++ thread 30)
    (fun σ => σ.log.map (fun d => (d.sub, d.idx))) [(0, 0), (1, 0), (0, 1), (1, 1)] (by decide +kernel)
  exact ⟨σ, h, e⟩

/-! ## C31 -/

/-- Once `DeleteSubscriber` has returned on the bus where the subscriber is registered, it is never called again. -/
theorem C31_no_delivery_after_delete (σ τ σ' : St) (as : List Act) (b s : Nat) (h : Reachable σ)
    (hb : s ∈ (σ.w.bus b).subs) (hd : step σ (.deleteSub b s) = some τ) (he : exec τ as = some σ') :
    received s σ'.log = received s σ.log := by
  have hi := h.inv
  have hlog : τ.log = σ.log := (step_external hi.wok (fun c e => by cases e) hd).log
  have hg : Gone s τ := by
    simp only [step] at hd
    split at hd <;> try contradiction
    rename_i hx
    cases hd
    refine ⟨hx.2.1, ?_⟩
    intro c hc
    simp only [deleteSubscriber, outcome, World.setBus, World.setSub] at hc
    split at hc
    · simp at hc
    · rename_i hne
      have h1 := (hi.wok.subsHome c s hc).2
      have h2 := (hi.wok.subsHome b s hb).2
      exact hne (h1.symm.trans h2)
  unfold received
  rw [gone_silent (inv_step hi hd) hg he, hlog]

/-- Deletion while messages are queued, a new callback set afterwards, then the bus runs. -/
example : ∃ σ σ', Reachable σ ∧ 0 ∈ (σ.w.bus 0).subs ∧
    exec σ (.deleteSub 0 0 :: .setCb 0 (some 5) :: thread 30) = some σ' ∧ σ'.log.map Delivery.sub = [1, 1] := by
  obtain ⟨σ, σ', _, h, he, e⟩ := play_obs2 (bs "r") (setup ++ publication ++ publication ++ [.start])
    (.deleteSub 0 0 :: .setCb 0 (some 5) :: thread 30)
    (fun σ σ' => ((σ.w.bus 0).subs.contains 0, σ'.log.map Delivery.sub)) (true, [1, 1]) (by decide +kernel)
  simp only [Prod.mk.injEq] at e
  exact ⟨σ, σ', h, by simpa using e.1, he, e.2⟩

/-! ## C32 -/

/-- A bus below a detached one stays without publishing function for ever, also a bus created there later would, and
`Publish` on it, directly or through one of its publishers, enqueues nothing. -/
theorem C32_detached_publishes_nothing (σ σ' : St) (as : List Act) (b : Nat) (h : Reachable σ) (hb : b < σ.w.nb)
    (hd : ∀ c, Anc σ.w b c → (σ.w.bus c).attached = false) (he : exec σ as = some σ') (c : Nat) (hc : Anc σ'.w b c) :
    (∀ m τ, step σ' (.publish c m) = some τ → τ = σ') ∧
    (∀ p d τ, (σ'.w.pub p).bus = c → step σ' (.pubPublish p d) = some τ → τ = σ') := by
  have hx : DetachedBelow b σ' := exec_induct (P := DetachedBelow b) (Q := fun _ => True)
    (fun σ a σ' hi _ hp hs => detached_step hi hp hs) h.inv (fun _ _ => trivial) ⟨hb, hd⟩ he
  have ha := hx.2 c hc
  constructor
  · intro m τ hs
    simp only [step] at hs
    split at hs <;> try contradiction
    cases hs
    simp [publishMsg, ha]
  · intro p d τ hp hs
    simp only [step] at hs
    split at hs <;> try contradiction
    cases hs
    unfold pubPublish publishTopic publishMsg
    rw [hp, ha]
    simp

/-- `Detach` removes the publishing function of the bus and of everything below it, stops everything strictly below it
and changes nothing else. -/
theorem C32_detach_covers_subtree (w : World) (hw : ∃ σ, Reachable σ ∧ σ.w = w) (b : Nat) (hb : b < w.nb) (fuel : Nat)
    (hf : w.nb ≤ fuel) : ∃ w', detach fuel b w = .ok () w' ∧
      (∀ c, (w'.bus c).attached = true ↔ (w.bus c).attached = true ∧ ¬Anc w b c) ∧
      (∀ c, (w'.bus c).running = true ↔ (w.bus c).running = true ∧ ¬(Anc w b c ∧ c ≠ b)) ∧
      (∀ c, (w'.bus c).subs = (w.bus c).subs ∧ (w'.bus c).children = (w.bus c).children) ∧ w'.queue = w.queue := by
  obtain ⟨σ, hr, rfl⟩ := hw
  obtain ⟨w', h1, h2⟩ := detach_spec fuel σ.w b hr.inv.wok hb (by omega)
  refine ⟨w', h1, ?_, ?_, fun c => ⟨(h2.bus c).2.2.1, (h2.bus c).2.1⟩, h2.rest.2.2.2.2.2⟩
  · intro c
    by_cases hc : Anc σ.w b c
    · rw [h2.det c hc]; simp [hc]
    · rw [h2.det' c hc]; simp [hc]
  · intro c
    by_cases hc : Anc σ.w b c ∧ c ≠ b
    · rw [h2.stp c hc]; simp [hc]
    · rw [h2.stp' c hc]; simp [hc]

/-- The destructor of the root bus does that to the whole hierarchy and gives up the root's children. -/
theorem C32_destructor_covers_hierarchy (w : World) (hw : ∃ σ, Reachable σ ∧ σ.w = w) (fuel : Nat) (hf : w.nb ≤ fuel) :
    ∃ w', destroyRoot fuel w = .ok () w' ∧
      (∀ c, (w'.bus c).attached = true ↔ (w.bus c).attached = true ∧ ¬Anc w 0 c) ∧
      (∀ c, (w'.bus c).running = true ↔ (w.bus c).running = true ∧ ¬(Anc w 0 c ∧ c ≠ 0)) ∧
      (∀ c, (w'.bus c).subs = (w.bus c).subs ∧ (w'.bus c).children = if c = 0 then [] else (w.bus c).children) ∧ w'.queue = w.queue := by
  have h0 : 0 < w.nb := by obtain ⟨σ, hr, rfl⟩ := hw; exact hr.inv.wok.root
  obtain ⟨w1, h1, h2, h3, h4, h5⟩ := C32_detach_covers_subtree w hw 0 h0 (fuel + 1) (by omega)
  refine ⟨w1.setBus 0 { w1.bus 0 with children := [] }, ?_, fun c => ?_, fun c => ?_, fun c => ⟨?_, ?_⟩, h5⟩
  · simp only [detach] at h1
    simp only [destroyRoot, h1]
  · rw [← h2 c]; simp only [World.setBus]; split <;> simp_all
  · rw [← h3 c]; simp only [World.setBus]; split <;> simp_all
  · rw [← (h4 c).1]; simp only [World.setBus]; split <;> simp_all
  · rw [← (h4 c).2]; simp only [World.setBus]; split <;> simp_all

example : ∃ σ, Reachable σ ∧ σ.w.nb = 2 ∧ (σ.w.bus 0).children.find (bs "c") = some 1 ∧ (σ.w.bus 1).attached = true ∧ (σ.w.bus 1).running = true := by
  obtain ⟨σ, _, h, e⟩ := play_obs (bs "r") setup
    (fun σ => (σ.w.nb, (σ.w.bus 0).children.find (bs "c"), (σ.w.bus 1).attached, (σ.w.bus 1).running)) (2, some 1, true, true) (by decide +kernel)
  simp only [Prod.mk.injEq] at e
  exact ⟨σ, h, e.1, e.2.1, e.2.2.1, e.2.2.2⟩

/-- A deleted publisher never publishes again. -/
theorem C32_deleted_publisher_publishes_nothing (σ τ σ' : St) (as : List Act) (b p : Nat)
    (hd : step σ (.deletePub b p) = some τ) (he : exec τ as = some σ') (d : Tree) (ρ : St)
    (hs : step σ' (.pubPublish p d) = some ρ) : ρ = σ' := by
  have h0 : p < τ.w.np ∧ (τ.w.pub p).active = false := by
    simp only [step] at hd
    split at hd <;> try contradiction
    rename_i hx
    cases hd
    simp only [deletePublisher, outcome, World.setBus, World.setPub]
    exact ⟨hx.2, by simp⟩
  have h1 : p < σ'.w.np ∧ (σ'.w.pub p).active = false := by
    clear hd hs
    induction as generalizing τ with
    | nil => simp [exec] at he; subst he; exact h0
    | cons a as ih =>
      simp only [exec] at he
      cases hs : step τ a with
      | none => simp [hs] at he
      | some τ' => simp only [hs] at he; exact ih τ' he (pub_inactive_step h0.1 h0.2 hs)
  simp only [step] at hs
  split at hs <;> try contradiction
  cases hs
  simp [pubPublish, h1.2]

/-- A detached child with a publisher, and a bus below it. -/
example : ∃ σ, Reachable σ ∧ 1 < σ.w.nb ∧ (∀ c, Anc σ.w 1 c → (σ.w.bus c).attached = false) ∧ Anc σ.w 1 2 ∧
    (σ.w.pub 0).bus = 1 ∧ (σ.w.bus 0).attached = true := by
  obtain ⟨σ, _, h, e⟩ := play_obs (bs "r") (setup ++ [.createChild 1 (bs "d"), .detachOne 1, .stop 2, .detachOne 2])
    (fun σ => (σ.w.nb, (σ.w.bus 1).attached, (σ.w.bus 2).attached, (σ.w.bus 1).children.find (bs "d"), (σ.w.pub 0).bus,
      (σ.w.bus 0).attached)) (3, false, false, some 2, 1, true) (by decide +kernel)
  simp only [Prod.mk.injEq] at e
  obtain ⟨e1, e2, e3, e4, e5, e6⟩ := e
  refine ⟨σ, h, by omega, ?_, .step (.refl 1) ⟨_, e4⟩, e5, e6⟩
  intro c hc
  have h1 := hc.le h.inv.wok
  have h2 := hc.lt_nb h.inv.wok (by omega)
  have : c = 1 ∨ c = 2 := by omega
  rcases this with rfl | rfl
  · exact e2
  · exact e3
example : ∃ σ τ, Reachable σ ∧ step σ (.deletePub 1 0) = some τ ∧ 0 < τ.w.np := by
  obtain ⟨σ, σ', _, h, he, e⟩ := play_obs2 (bs "r") setup [.deletePub 1 0] (fun _ σ' => decide (0 < σ'.w.np)) true
    (by decide +kernel)
  simp only [exec] at he
  cases hs : step σ (.deletePub 1 0) with
  | none => simp [hs] at he
  | some τ => simp [hs] at he; subst he; exact ⟨σ, τ, h, hs, by simpa using e⟩

/-! ## C33 -/

/-- After `Stop`, until `Start` is called again, every delivery belongs to the message in distribution at that time. -/
theorem C33_only_current_after_stop (σ τ σ' : St) (as : List Act) (h : Reachable σ) (hstop : step σ (.stop 0) = some τ)
    (ha : .start ∉ as) (he : exec τ as = some σ') :
    ∃ l, σ'.log = σ.log ++ l ∧ ∀ d ∈ l, d.idx + 1 = σ.fates.length ∧ σ.published[σ.fates.length - 1]? = some d.msg := by
  have hi := h.inv
  have hx := step_external hi.wok (fun c e => by cases e) hstop
  have hrun : (τ.w.bus 0).running = false := by
    simp only [step] at hstop
    split at hstop <;> try contradiction
    cases hstop
    simp [stop, World.setBus]
  have hi' := inv_step hi hstop
  obtain ⟨l, hl⟩ := exec_log hi' he
  have h1 := onlyCurrent_exec hi' ha hrun he
  rw [← hl, List.drop_left, hx.fates] at h1
  refine ⟨l, by rw [← hl, hx.log], ?_⟩
  intro d hd
  refine ⟨h1 d hd, ?_⟩
  have h2 := (inv_exec hi' he).log d (by rw [← hl]; simp [hd])
  have h3 := h1 d hd
  have h4 : σ.published <+: σ'.published := by
    have hp : σ.published <+: τ.published := by
      obtain ⟨ms, hp, _⟩ := hx.queue
      rw [hp]; exact List.prefix_append _ _
    refine hp.trans ?_
    refine exec_induct (P := fun ρ => τ.published <+: ρ.published) (Q := fun _ => True) ?_ hi' (fun _ _ => trivial)
      (List.prefix_refl _) he
    intro ρ a ρ' hi'' _ hp hs
    by_cases hr : ∃ c, a = .run c
    · obtain ⟨c, rfl⟩ := hr
      rw [(run_world hs).2.2.2.2.2.1]; exact hp
    · obtain ⟨ms, hq, _⟩ := (step_external hi''.wok (fun c e => hr ⟨c, e⟩) hs).queue
      rw [hq]; exact hp.trans (List.prefix_append _ _)
  have h5 := hi.len
  obtain ⟨ms, h4⟩ := h4
  rw [← h4, List.getElem?_append_left (by omega)] at h2
  rw [← h3]; exact h2.2.2.1

/-- The number of steps the bus thread still takes after `Stop` is bounded, whatever the other threads do, by a number
that depends on the state and on how many messages are queued meanwhile, as long as nothing new is created. -/
theorem C33_exits_within_bound (σ : St) (h : Reachable σ) (hs : (σ.w.bus 0).running = false) :
    ∃ A B, ∀ as σ', (∀ a ∈ as, a ≠ .start ∧ a.creates = false) → exec σ as = some σ' →
      runs as ≤ A + B * pushes as := by
  refine ⟨toExit σ, unit σ.w, fun as σ' ha he => ?_⟩
  have := exit_bound h.inv hs ha he
  omega

/-- Left alone, the bus thread leaves `Run`. -/
theorem C33_exits (σ : St) (h : Reachable σ) (hs : (σ.w.bus 0).running = false) :
    ∃ n σ', exec σ (List.replicate n (.run .go)) = some σ' ∧ σ'.phase = .off :=
  exit_reached h.inv hs

/-- Messages still queued stay queued (except in the window of `C28_stop_window_discards_queue`). -/
theorem C33_queued_stay_queued (σ τ σ' : St) (as : List Act) (h : Reachable σ) (hd : σ.phase ≠ .drain)
    (hstop : step σ (.stop 0) = some τ) (ha : .start ∉ as) (he : exec τ as = some σ') : σ.w.queue <+: σ'.w.queue := by
  have h0 : Stopped τ ∧ τ.w.queue = σ.w.queue := by
    simp only [step] at hstop
    split at hstop <;> try contradiction
    cases hstop
    exact ⟨⟨by simp [stop, World.setBus], hd⟩, rfl⟩
  rw [← h0.2]
  exact (stopped_exec (inv_step h.inv hstop) ha h0.1 he).2.1

/-- `Stop` inside the first callback for the first of two drained messages: the subscriber on the child still gets the
first message, the second is never delivered, the third stays queued. -/
example : ∃ σ σ', Reachable σ ∧ exec σ (.stop 0 :: (publication ++ thread 30)) = none ∧
    exec σ (.stop 0 :: (publication ++ thread 12)) = some σ' ∧ σ.log.map Delivery.sub = [0] ∧
    σ'.log.map (fun d => (d.sub, d.idx)) = [(0, 0), (1, 0)] ∧ σ'.w.queue.length = 1 := by
  obtain ⟨σ, σ', _, h, he, e⟩ := play_obs2 (bs "r") (setup ++ publication ++ publication ++ [.start] ++ thread 7)
    (.stop 0 :: (publication ++ thread 12))
    (fun σ σ' => (σ.log.map Delivery.sub, σ'.log.map (fun d => (d.sub, d.idx)), σ'.w.queue.length,
      (exec σ (.stop 0 :: (publication ++ thread 30))).isNone)) ([0], [(0, 0), (1, 0)], 1, true) (by decide +kernel)
  simp only [Prod.mk.injEq] at e
  exact ⟨σ, σ', h, by simpa using e.2.2.2, he, e.1, e.2.1, e.2.2.1⟩

/-! ## C34 -/

/-- Any number of `Stop` calls before `Start` has no effect on what happens from `Start` on. -/
theorem C34_stop_before_start_lost (σ : St) (h : Reachable σ) (hoff : σ.phase = .off) (n : Nat) (as : List Act) :
    exec σ (List.replicate n (.stop 0) ++ .start :: as) = exec σ (.start :: as) ∧
      ∃ τ, step σ .start = some τ ∧ (τ.w.bus 0).running = true ∧ τ.phase = .top := by
  have h0 := h.inv.wok.root
  refine ⟨?_, { σ with w := setRunning 0 σ.w, phase := .top }, by simp [step, hoff], by simp [setRunning, World.setBus], rfl⟩
  have key : ∀ ρ : St, ρ.phase = .off → 0 < ρ.w.nb →
      exec ρ (List.replicate n (.stop 0) ++ .start :: as) = exec ρ (.start :: as) := by
    induction n with
    | zero => intro ρ _ _; rfl
    | succ n ih =>
      intro ρ hp hn
      rw [List.replicate_succ, List.cons_append]
      simp only [exec, step, hn, if_true]
      rw [ih _ (by exact hp) (by exact hn)]
      simp only [exec, step, hp]
      congr 1
      simp only [setRunning, stop, World.setBus]
      congr 2
      funext i
      split <;> simp_all
  exact key σ hoff h0

example : ∃ σ, Reachable σ ∧ σ.phase = .off ∧ σ.w.queue.length = 1 := by
  obtain ⟨σ, _, h, e⟩ := play_obs (bs "r") (setup ++ publication)
    (fun σ => ((match σ.phase with | .off => true | _ => false), σ.w.queue.length)) (true, 1) (by decide +kernel)
  simp only [Prod.mk.injEq] at e
  exact ⟨σ, h, by have := e.1; cases hp : σ.phase <;> simp [hp] at this ⊢, e.2⟩

/-! ## C35 -/

/-- The bus thread is never blocked: whenever it is inside `Run` it can take a step by itself (a blocked wait ends by
its timeout). -/
theorem C35_never_blocked (σ : St) (h : σ.phase ≠ .off) : ∃ c σ', step σ (.run c) = some σ' ∧
    (σ.phase = .asleep → c = .timeout) := by
  by_cases ha : σ.phase = .asleep
  · exact ⟨.timeout, { σ with phase := .woken }, by simp [step, rstep, ha], fun _ => rfl⟩
  · obtain ⟨σ', h⟩ := run_enabled σ h
    exact ⟨.go, σ', h, fun e => absurd e ha⟩

/-- With messages queued, a bus thread between two batches, in particular one that missed the notification, takes over
the whole queue with its next five steps at the latest, whatever other threads do short of stopping the bus. -/
theorem C35_missed_wakeup_only_delays (σ σ' : St) (as : List Act) (h : Reachable σ) (hr : (σ.w.bus 0).running = true)
    (hq : σ.w.queue ≠ []) (hw : Waiting σ.phase) (hs : .stop 0 ∉ as) (he : exec σ as = some σ') (hn : 5 < runs as) :
    ∃ taken rest, σ'.published = taken ++ rest ∧ σ.published <+: taken ∧
      taken.length = σ'.fates.length + σ'.phase.batch.length := by
  have hi := h.inv
  rcases wake_bound hi hr hq hw hs he with h1 | h1
  · have hi' := inv_exec hi he
    have hc := hi'.count
    refine ⟨σ'.published.take (σ'.fates.length + σ'.phase.batch.length),
      σ'.published.drop (σ'.fates.length + σ'.phase.batch.length), (List.take_append_drop _ _).symm, ?_, ?_⟩
    · have hp : σ.published <+: σ'.published := by
        refine exec_induct (P := fun ρ => σ.published <+: ρ.published) (Q := fun _ => True) ?_ hi (fun _ _ => trivial)
          (List.prefix_refl _) he
        intro ρ a ρ' hi'' _ hp hs
        by_cases hr : ∃ c, a = .run c
        · obtain ⟨c, rfl⟩ := hr
          rw [(run_world hs).2.2.2.2.2.1]; exact hp
        · obtain ⟨ms, hq, _⟩ := (step_external hi''.wok (fun c e => hr ⟨c, e⟩) hs).queue
          rw [hq]; exact hp.trans (List.prefix_append _ _)
      obtain ⟨l, hl⟩ := hp
      rw [← hl, List.take_append]
      rw [List.take_of_length_le h1]
      exact List.prefix_append _ _
    · rw [List.length_take]; omega
  · have : wake σ.phase ≤ 5 := by cases σ.phase <;> simp [wake]
    omega

/-- The same from any point of the loop, also from within a distribution: the number of own steps until the queue is
taken over is bounded, as long as callbacks return and nothing new is created. -/
theorem C35_queue_taken_within_bound (σ : St) (h : Reachable σ) (hr : (σ.w.bus 0).running = true)
    (hoff : σ.phase ≠ .off) : ∃ N, ∀ as σ', (∀ a ∈ as, a ≠ .stop 0 ∧ a ≠ .run .throwing ∧ a.creates = false) →
      exec σ as = some σ' → N < runs as → σ.published.length ≤ σ'.fates.length + σ'.phase.batch.length := by
  refine ⟨toDrain σ, fun as σ' ha he hn => ?_⟩
  rcases drain_bound h.inv σ.published.length (Nat.le_refl _) hr hoff ha he with h1 | h1
  · exact h1
  · omega

/-- The notification is issued after the predicate was evaluated and before the thread sleeps: it is lost, and the
timeout leads to the message. -/
example : ∃ σ σ', Reachable σ ∧ (σ.w.bus 0).running = true ∧ σ.w.queue ≠ [] ∧ Waiting σ.phase ∧ σ.toNotify = 0 ∧
    exec σ ([.run .go, .run .timeout] ++ thread 4) = some σ' ∧ 5 < runs ([.run .go, .run .timeout] ++ thread 4) ∧
    σ'.fates.length = 1 := by
  obtain ⟨σ, σ', _, h, he, e⟩ := play_obs2 (bs "r") (setup ++ [.start] ++ thread 2 ++ publication ++ [.notify])
    ([.run .go, .run .timeout] ++ thread 4)
    (fun σ σ' => ((σ.w.bus 0).running, σ.w.queue.length, (match σ.phase with | .drowsy => true | _ => false),
      σ.toNotify, σ'.fates.length)) (true, 1, true, 0, 1) (by decide +kernel)
  simp only [Prod.mk.injEq] at e
  obtain ⟨e1, e2, e3, e4, e5⟩ := e
  refine ⟨σ, σ', h, e1, ?_, ?_, e4, he, by decide, e5⟩
  · intro hq; rw [hq] at e2; cases e2
  · have : σ.phase = .drowsy := by cases hp : σ.phase <;> simp [hp] at e3 ⊢
    rw [this]; simp [Waiting]

/-! ## C40 -/

/-- Publishing never blocks: both parts of a `Publish` call can happen in every state, in particular inside a callback
on the bus thread. -/
theorem C40_publish_never_blocks (σ : St) (b : Nat) (m : BMsg) (hb : b < σ.w.nb) (ha : (σ.w.bus b).attached = true) :
    ∃ τ τ', step σ (.publish b m) = some τ ∧ step τ (.push σ.inflight.length) = some τ' ∧
      τ'.published = σ.published ++ [m] ∧ τ'.w.queue = σ.w.queue ++ [m] ∧ τ'.phase = σ.phase := by
  refine ⟨{ σ with inflight := σ.inflight ++ [m] },
    { σ with w := push m σ.w, toNotify := σ.toNotify + 1, published := σ.published ++ [m] }, ?_, ?_, ?_, ?_, ?_⟩
  · simp [step, hb, publishMsg, ha]
  · simp [step]
    rw [List.eraseIdx_append_of_length_le (Nat.le_refl _)]; simp
  · rfl
  · rfl
  · rfl

/-- A message queued while a callback is running is delivered only after every delivery of the messages of the batch
being distributed. -/
theorem C40_delivered_after_batch (σ τ σ' : St) (as : List Act) (i : Nat) (m : BMsg) (st : List Frame)
    (batch : List BMsg) (h : Reachable σ) (hp : σ.phase = .visit m st true batch) (hs : step σ (.push i) = some τ)
    (he : exec τ as = some σ') (l1 l2 : List Delivery) (d : Delivery) (hl : σ'.log = l1 ++ d :: l2)
    (hd : d.idx = σ.published.length) :
    σ.log <+: l1 ∧ ∀ e ∈ l2, σ.fates.length + batch.length ≤ e.idx := by
  have hi := h.inv
  have hi' := inv_step hi hs
  have hi'' := inv_exec hi' he
  have hc := hi.count
  rw [hp] at hc
  simp only [Phase.batch] at hc
  constructor
  · have hx := step_external hi.wok (fun c e => by cases e) hs
    have h1 := exec_log hi' he
    rw [hx.log, hl] at h1
    rcases Nat.lt_or_ge l1.length σ.log.length with hlt | hge
    · exfalso
      obtain ⟨t, ht⟩ := h1
      have h2 : σ.log[l1.length]? = some d := by
        have : (σ.log ++ t)[l1.length]? = (l1 ++ d :: l2)[l1.length]? := by rw [ht]
        rw [List.getElem?_append_left hlt] at this
        rw [this]; simp
      have h3 := (hi.log d (List.mem_of_getElem? h2)).2.1
      omega
    · exact List.prefix_of_prefix_length_le h1 (List.prefix_append _ _) hge
  · intro e hm
    have := hi''.sorted
    rw [hl, List.pairwise_append, List.pairwise_cons] at this
    have := this.2.1.1 e hm
    omega

/-- A callback publishes while a second message of the batch is waiting. -/
example : ∃ σ σ' d, Reachable σ ∧ (∃ m st b, σ.phase = .visit m st true b ∧ b.length = 1) ∧
    exec σ (publication ++ thread 40) = some σ' ∧ σ'.log[4]? = some d ∧ d.idx = 2 ∧ σ.published.length = 2 := by
  obtain ⟨σ, σ', _, h, he, e⟩ := play_obs2 (bs "r") (setup ++ publication ++ publication ++ [.start] ++ thread 7)
    (publication ++ thread 40)
    (fun σ σ' => ((match σ.phase with | .visit _ _ true b => b.length | _ => 0), σ'.log[4]?.map Delivery.idx,
      σ.published.length)) (1, some 2, 2) (by decide +kernel)
  simp only [Prod.mk.injEq] at e
  obtain ⟨e1, e2, e3⟩ := e
  cases hd : σ'.log[4]? with
  | none => simp [hd] at e2
  | some d =>
    refine ⟨σ, σ', d, h, ?_, he, hd, by simpa [hd] using e2, e3⟩
    cases hp : σ.phase with
    | visit m st cb b =>
      cases cb with
      | true => rw [hp] at e1; exact ⟨m, st, b, rfl, e1⟩
      | false => rw [hp] at e1; cases e1
    | _ => rw [hp] at e1; cases e1

end LP.Bus
