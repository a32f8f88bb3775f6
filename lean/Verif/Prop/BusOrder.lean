import Verif.Prop.BusQueue
import Verif.Lemma.CallbackException
/-!
# C120, C121: the order in which a hierarchy delivers, and what a new subscriber receives

All theorems quantify over every interleaving of the bus thread with any number of calls by other threads and by
callbacks.
-/
namespace LP.Bus

/-! ## C120 -/

theorem before_le {σ : St} (h : Inv σ) {s i s' j : Nat} (hb : Before σ.log s i s' j) : i ≤ j := by
  obtain ⟨l1, d, l2, e, l3, hl, _, rfl, _, rfl⟩ := hb
  have := h.sorted
  rw [hl, List.append_assoc, List.pairwise_append] at this
  have h2 := this.2.1
  simp only [List.cons_append, List.pairwise_cons] at h2
  exact h2.1 e (by simp)

/-- All subscribers of the whole hierarchy see the same order: if some subscriber gets one message before another, no
subscriber gets them the other way round. Indeed messages are delivered one after the other: once a message has reached
anyone, none before it reaches anybody. -/
theorem C120_one_order (σ : St) (h : Reachable σ) (s s1 s2 s' i j : Nat) (hne : i ≠ j)
    (h1 : Before σ.log s i s' j) : ¬ Before σ.log s1 j s2 i := by
  intro h2
  have a := before_le h.inv h1
  have b := before_le h.inv h2
  omega

theorem before_of {σ : St} (h : Inv σ) {s i s' j : Nat} (hij : i < j) (hi : i ∈ received s σ.log) (hj : j ∈ received s' σ.log) :
    Before σ.log s i s' j := by
  simp only [received, List.mem_map, List.mem_filter, decide_eq_true_eq] at hi hj
  obtain ⟨d, ⟨hd, rfl⟩, rfl⟩ := hi
  obtain ⟨e, ⟨he, rfl⟩, rfl⟩ := hj
  obtain ⟨l1, l2, hl⟩ := List.append_of_mem hd
  have hs := h.sorted
  rw [hl, List.mem_append, List.mem_cons] at he
  rw [hl, List.pairwise_append] at hs
  rcases he with he | he | he
  · have := hs.2.2 e he d (by simp); omega
  · rw [he] at hij; omega
  · obtain ⟨l3, l4, hl'⟩ := List.append_of_mem he
    exact ⟨l1, d, l3, e, l4, by rw [hl, hl']; simp, rfl, rfl, rfl, rfl⟩

/-- Causality: a message whose `Publish` has appended it to the queue after some other message was in the queue (because
the same thread published both one after the other, or because it was published in a callback that got the other one, or
by a thread that was told by such a callback, and so on) reaches every subscriber after that other message. -/
theorem C120_causal (σ σ' : St) (as : List Act) (h : Reachable σ) (he : exec σ as = some σ') (i j : Nat)
    (hi : i < σ.published.length) (hj : σ.published.length ≤ j) (s s' : Nat) (h1 : i ∈ received s σ'.log)
    (h2 : j ∈ received s' σ'.log) : Before σ'.log s i s' j :=
  before_of (inv_exec h.inv he) (by omega) h1 h2

/-- The numbers of messages are their places in the order of publication, for ever: what is published later gets a larger
one. -/
theorem C120_numbers (σ σ' : St) (as : List Act) (h : Reachable σ) (he : exec σ as = some σ') :
    σ.published <+: σ'.published := by
  refine exec_induct (P := fun τ => σ.published <+: τ.published) (Q := fun _ => True) ?_ h.inv (fun _ _ => trivial)
    (List.prefix_refl _) he
  intro ρ a ρ' hi _ hp hs
  by_cases hr : ∃ c, a = .run c
  · obtain ⟨c, rfl⟩ := hr
    rw [show ρ'.published = ρ.published from ?_]; exact hp
    simp only [step] at hs
    unfold rstep at hs
    split at hs
    case h_11 =>
      rename_i m f st batch hp
      cases hd : dstep ρ.w m (ρ.fates.length - 1) (f :: st) with
      | mk st' od => cases od <;> simp only [hd] at hs <;> cases hs <;> rfl
    case h_9 => split at hs <;> cases hs <;> rfl
    all_goals first
      | (cases hs; rfl)
      | cases hs
  · obtain ⟨ms, e, _⟩ := (step_external hi.wok (fun c e => hr ⟨c, e⟩) hs).queue
    rw [e]; exact hp.trans (List.prefix_append _ _)

/-- An answer never overtakes the question: whatever is published during a callback or later comes after the message of
that callback, for every subscriber. -/
theorem C120_answers_after_questions (σ σ' : St) (as : List Act) (h : Reachable σ) (d : Delivery) (hd : d ∈ σ.log)
    (he : exec σ as = some σ') (j : Nat) (hj : σ.published.length ≤ j) (s s' : Nat) (h1 : d.idx ∈ received s σ'.log)
    (h2 : j ∈ received s' σ'.log) : Before σ'.log s d.idx s' j := by
  have hx := h.inv.log d hd
  have := (List.getElem?_eq_some_iff.1 hx.2.2.1).1
  exact C120_causal σ σ' as h he _ j this hj s s' h1 h2

/-- Two messages published one after the other reach two subscribers, one message after the other. -/
example : ∃ σ σ', Reachable σ ∧ exec σ (publication ++ thread 30) = some σ' ∧ 0 < σ.published.length ∧
    σ.published.length ≤ 1 ∧ 0 ∈ received 1 σ'.log ∧ 1 ∈ received 0 σ'.log ∧ σ.log.length = 1 ∧
    Before σ'.log 0 0 0 1 := by
  obtain ⟨σ, σ', _, h, he, e⟩ := play_obs2 (bs "r") (setup ++ publication ++ [.start] ++ thread 7)
    (publication ++ thread 30)
    (fun σ σ' => ((σ.published.length, σ.log.length), received 0 σ'.log, received 1 σ'.log)) ((1, 1), [0, 1], [0, 1])
    (by decide +kernel)
  simp only [Prod.mk.injEq] at e
  obtain ⟨⟨e1, e2⟩, e3, e4⟩ := e
  exact ⟨σ, σ', h, he, by omega, by omega, by rw [e4]; simp, by rw [e3]; simp, e2,
    before_of (inv_exec h.inv he) (Nat.zero_lt_one) (by rw [e3]; simp) (by rw [e3]; simp)⟩

/-! ## C121 -/

/-- A new subscriber receives every matching message that is still waiting when it is created, whenever that was
published, and all later ones. Of the messages already taken up it can receive only the one in distribution, if its bus has
not been visited yet. -/
theorem C121_new_subscriber (σ τ σ' : St) (as : List Act) (b : Nat) (topic : Str) (f : Option Nat) (h : Reachable σ)
    (hc : step σ (.createSub b topic f) = some τ) (hl : Throughout (fun ρ => Live ρ.w σ.w.ns) τ as)
    (ht : .run .throwing ∉ as) (he : exec τ as = some σ') (hidle : Idle σ') :
    ∃ k, received σ.w.ns σ'.log = due topic σ'.published k σ'.published.length ∧
      (k = σ.fates.length ∨ k + 1 = σ.fates.length ∧ ∃ m st cb bt, σ.phase = .visit m st cb bt) := by
  have hi := h.inv
  have hit := inv_step hi hc
  have hx := step_external hi.wok (fun c e => by cases e) hc
  have hns : τ.w.ns = σ.w.ns + 1 ∧ (τ.w.sub σ.w.ns).topic = topic ∧ τ.phase = σ.phase := by
    simp only [step] at hc
    split at hc <;> cases hc
    simp [createSubscriber, outcome, World.setBus, World.setSub]
  have hnone : received σ.w.ns τ.log = [] := by
    rw [hx.log, received, List.map_eq_nil_iff, List.filter_eq_nil_iff]
    intro d hd
    have := (hi.log d hd).1
    simp only [decide_eq_true_eq]; omega
  have hle : pendS τ.w σ.w.ns (τ.w.sub σ.w.ns).home τ.phase.stack ≤ 1 :=
    pendS_le_one hit.wok (by omega) hit.stack
  have h0 : LiveInv σ.w.ns (τ.fates.length - pendS τ.w σ.w.ns (τ.w.sub σ.w.ns).home τ.phase.stack) τ := by
    refine ⟨by omega, ?_⟩
    rw [hnone, due_empty (Nat.le_refl _)]; rfl
  have hx' := live_exec hit h0 hl ht he
  have hend := inv_exec hit he
  have hf : FreshInv σ.w.ns (τ.fates.length - pendS τ.w σ.w.ns (τ.w.sub σ.w.ns).home τ.phase.stack) topic τ := by
    refine ⟨by omega, ?_, ?_, hns.2.1⟩
    · have : pendS τ.w σ.w.ns (τ.w.sub σ.w.ns).home τ.phase.stack ≤ τ.fates.length := by
        cases hp : τ.phase with
        | visit m st cb b => have := (hit.cur m st cb b hp).1; rw [hp] at hle; omega
        | _ => exact Nat.le_trans (Nat.le_of_eq (pendS_nil _ _ _)) (Nat.zero_le _)
      omega
    · intro d hd hs
      rw [hx.log] at hd
      have := (hi.log d hd).1
      omega
  have hf' := fresh_exec hit hf hl he
  generalize hk : τ.fates.length - pendS τ.w σ.w.ns (τ.w.sub σ.w.ns).home τ.phase.stack = k at *
  refine ⟨k, ?_, ?_⟩
  · have hst : σ'.phase.stack = [] := by
      cases hp : σ'.phase <;> first | rfl | exact absurd hp (hidle.2.2 _ _ _ _)
    have hcount := hend.count
    rw [hidle.1, hidle.2.1] at hcount
    simp only [List.length_nil, Nat.add_zero] at hcount
    have hg := hx'.got
    rw [hst, pendS_nil, Nat.sub_zero, hcount, List.filter_eq_self.2] at hg
    · rw [hg, hf'.topic]
    · intro i hm
      obtain ⟨d, hd, rfl⟩ := List.mem_map.1 hm
      have := List.mem_filter.1 hd
      simpa using hf'.above d this.1 (by simpa using this.2)
  · rw [hx.fates, hns.2.2] at hk
    rw [hns.2.2] at hle
    cases hp : σ.phase with
    | visit m st cb b =>
      by_cases hz : pendS τ.w σ.w.ns (τ.w.sub σ.w.ns).home σ.phase.stack = 0
      · left; omega
      · right; refine ⟨?_, _, _, _, _, rfl⟩
        have := (hi.cur m st cb b hp).1
        omega
    | _ =>
      left
      rw [hp] at hk
      simp only [Phase.stack, pendS_nil] at hk
      omega

/-- In particular each message that was published before the subscriber existed and had not been taken up. -/
theorem C121_waiting_messages (σ τ σ' : St) (as : List Act) (b : Nat) (topic : Str) (f : Option Nat) (h : Reachable σ)
    (hc : step σ (.createSub b topic f) = some τ) (hl : Throughout (fun ρ => Live ρ.w σ.w.ns) τ as)
    (ht : .run .throwing ∉ as) (he : exec τ as = some σ') (hidle : Idle σ') (i : Nat) (m : BMsg)
    (hm : (σ.phase.batch ++ σ.w.queue)[i]? = some m) (hmt : TopicRule topic m.topic) :
    σ.fates.length + i ∈ received σ.w.ns σ'.log := by
  obtain ⟨k, hk, hk'⟩ := C121_new_subscriber σ τ σ' as b topic f h hc hl ht he hidle
  have hτ : exec σ (.createSub b topic f :: as) = some σ' := by simp only [exec, hc]; exact he
  obtain ⟨l, hp⟩ := C120_numbers σ σ' _ h hτ
  rw [← h.inv.split, List.getElem?_drop] at hm
  have hlt := (List.getElem?_eq_some_iff.1 hm).1
  have hm' : σ'.published[σ.fates.length + i]? = some m := by rw [← hp, List.getElem?_append_left hlt]; exact hm
  have hlt' := (List.getElem?_eq_some_iff.1 hm').1
  rw [hk]
  unfold due
  rw [List.mem_filter, List.mem_range'_1, hm']
  exact ⟨by omega, by simpa using hmt⟩

/-- Nothing published before `Start` is lost: a subscriber that is live from `Start` on receives every matching message
ever published, in order, whether it was published before or after, and whether the subscriber existed at that time. -/
theorem C121_before_start (name : Str) (σ₀ σ τ σ' : St) (as bs : List Act) (s : Nat) (h0 : initial name = some σ₀)
    (ha : .start ∉ as) (h1 : exec σ₀ as = some σ) (hs : s < σ.w.ns) (h2 : step σ .start = some τ)
    (hl : Throughout (fun ρ => Live ρ.w s) τ bs) (hc : .run .throwing ∉ bs) (he : exec τ bs = some σ') (hidle : Idle σ') :
    received s σ'.log = due (σ'.w.sub s).topic σ'.published 0 σ'.published.length := by
  have hi := inv_initial h0
  have hp : σ₀.phase = .off ∧ σ₀.fates = [] := by
    unfold initial at h0
    split at h0 <;> cases h0
    exact ⟨rfl, rfl⟩
  have hoff := off_exec hi hp.1 ha h1
  have hr : Reachable τ := ⟨name, σ₀, as ++ [.start], h0, by rw [exec_append, h1]; simp [exec, h2]⟩
  have hx := step_external (inv_exec hi h1).wok (fun c e => by cases e) h2
  have hf : τ.fates = [] := by rw [hx.fates, hoff.2.2.1, hp.2]
  have := C29_stable_subscriber_receives_all τ σ' bs s hr (Nat.lt_of_lt_of_le hs hx.grows.2.1) hl hc he hidle
  rw [hf] at this
  rwa [List.filter_eq_self.2 (fun a _ => by simp)] at this

/-- Two messages are drained and the first is being distributed, its turn on the child not yet come, and a third is
queued, when a subscriber is created on the child: it receives all three. -/
example : ∃ σ τ σ', Reachable σ ∧ step σ (.createSub 1 (bs "t") (some 5)) = some τ ∧
    Throughout (fun ρ => Live ρ.w σ.w.ns) τ (thread 66) ∧ exec τ (thread 66) = some σ' ∧ Idle σ' ∧
    σ.fates.length = 1 ∧ (σ.phase.batch ++ σ.w.queue).length = 2 ∧ received σ.w.ns σ'.log = [0, 1, 2] := by
  obtain ⟨σ, σ', _, h, he, e⟩ := play_obs2 (bs "r")
    (setup ++ publication ++ publication ++ [.start] ++ thread 7 ++ publication)
    (.createSub 1 (bs "t") (some 5) :: thread 66)
    (fun σ σ' => ((σ.fates.length, (σ.phase.batch ++ σ.w.queue).length,
      (match step σ (.createSub 1 (bs "t") (some 5)) with
        | some τ => passes (liveChild σ.w.ns (bs "c")) τ (thread 66) | none => false)),
      (σ'.w.queue.isEmpty, (match σ'.phase with | .asleep => true | _ => false)), received σ.w.ns σ'.log))
    ((1, 2, true), (true, true), [0, 1, 2]) (by decide +kernel)
  simp only [Prod.mk.injEq] at e
  obtain ⟨⟨e1, e2, e3⟩, ⟨e4, e5⟩, e6⟩ := e
  simp only [exec] at he
  cases ht : step σ (.createSub 1 (bs "t") (some 5)) with
  | none => simp [ht] at he
  | some τ =>
    simp only [ht] at he e3
    have hp : σ'.phase = .asleep := by cases hp : σ'.phase <;> simp [hp] at e5 ⊢
    exact ⟨σ, τ, σ', h, ht, passes_throughout liveChild_live e3, he,
      ⟨by simpa using e4, by rw [hp]; rfl, by rw [hp]; simp⟩, e1, e2, e6⟩

/-- A message is published before the subscriber exists and before `Start`; the subscriber receives it. -/
example : ∃ σ₀ σ τ σ', initial (bs "r") = some σ₀ ∧
    exec σ₀ (setup ++ publication ++ [.createSub 1 (bs "t") (some 5)]) = some σ ∧ 2 < σ.w.ns ∧
    step σ .start = some τ ∧ Throughout (fun ρ => Live ρ.w 2) τ (publication ++ thread 51) ∧
    exec τ (publication ++ thread 51) = some σ' ∧ Idle σ' ∧ received 2 σ'.log = [0, 1] := by
  have hb : (initial (bs "r")).bind (fun σ₀ =>
      (exec σ₀ (setup ++ publication ++ [.createSub 1 (bs "t") (some 5)])).bind (fun σ => (step σ .start).bind (fun τ =>
        (exec τ (publication ++ thread 51)).map (fun σ' => ((decide (2 < σ.w.ns),
          passes (liveChild 2 (bs "c")) τ (publication ++ thread 51)),
          (σ'.w.queue.isEmpty, (match σ'.phase with | .asleep => true | _ => false)), received 2 σ'.log))))) =
      some ((true, true), (true, true), [0, 1]) := by decide +kernel
  simp only [Option.bind_eq_some_iff, Option.map_eq_some_iff, Prod.mk.injEq, decide_eq_true_eq] at hb
  obtain ⟨σ₀, h0, σ, h1, τ, h2, σ', h3, ⟨e1, e2⟩, ⟨e3, e4⟩, e5⟩ := hb
  have hp : σ'.phase = .asleep := by cases hp : σ'.phase <;> simp [hp] at e4 ⊢
  exact ⟨σ₀, σ, τ, σ', h0, h1, e1, h2, passes_throughout liveChild_live e2, h3,
    ⟨by simpa using e3, by rw [hp]; rfl, by rw [hp]; simp⟩, e5⟩

end LP.Bus
