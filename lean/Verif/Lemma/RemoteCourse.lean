import Verif.Lemma.Remote
/-!
# The course of a request across a link
-/
namespace LP.Remote
open LP.Action (Next Bears requestTopic responseTopic idOf responseOf envelope talk Pending Cons Prov Ev Source)
open LP.Bus (BMsg Delivery)

/-- The state of request `id` of a consumer on host `s`, answered on the other host. -/
structure Course (ends : Bool → End) (s : Bool) (topic id : Str) (c p : Nat) (t : Tree) (f : Tree → Tree) (σ : St) : Prop where
  /-- on the consumer's host -/
  near : ∀ m ∈ talk (σ.host s).bus, idOf m.dg = some id →
    (m.topic = requestTopic topic → m.dg = envelope (bs "request") id t) ∧
    (m.topic = responseTopic topic → Net.echo (ends s).name m = true ∧ responseOf m.dg = (f (envelope (bs "request") id t.wire)).wire)
  /-- on the provider's host -/
  far : ∀ m ∈ talk (σ.host (!s)).bus, idOf m.dg = some id →
    (m.topic = requestTopic topic → Net.echo (ends (!s)).name m = true ∧ m.dg = envelope (bs "request") id t.wire) ∧
    (m.topic = responseTopic topic → responseOf m.dg = f (envelope (bs "request") id t.wire))
  /-- between them -/
  out : ∀ m ∈ σ.way (!s), idOf m.dg = some id →
    (m.topic = requestTopic topic → m.dg = envelope (bs "request") id t) ∧ m.topic ≠ responseTopic topic
  back : ∀ m ∈ σ.way s, idOf m.dg = some id →
    m.topic ≠ requestTopic topic ∧ (m.topic = responseTopic topic → responseOf m.dg = f (envelope (bs "request") id t.wire))
  mine : ∀ q ∈ (σ.host s).pending, q.id = id → q.cons = c ∧ q.request = t
  free : ∀ q ∈ (σ.host (!s)).pending, q.id ≠ id
  sent : (∃ q ∈ (σ.host s).pending, q.cons = c ∧ q.id = id ∧ q.request = t) ∨ ∃ m ∈ talk (σ.host s).bus, m.topic = requestTopic topic ∧
    m.dg = envelope (bs "request") id t ∧ Net.echo (ends s).name m = false
  shown : Shown p id (σ.host (!s))
  told : ∀ u, (p, id, u) ∈ (σ.host (!s)).replied → ∃ m ∈ talk (σ.host (!s)).bus, m.topic = responseTopic topic ∧
    m.dg = envelope (bs "response") id u ∧ Net.echo (ends (!s)).name m = false
  /-- what a link's subscriber was called with is on its way or has arrived -/
  pass : ∀ r, ∀ d ∈ (σ.host r).bus.log, d.sub = (ends r).sub → idOf d.msg.dg = some id → Net.echo (ends r).name d.msg = false →
    d.msg ∈ σ.way (!r) ∨ Net.arrive (hop ends (!r)) d.msg ∈ talk (σ.host (!r)).bus

theorem not_throwing {a : Action.Act} {topic id : Str} {τ : Action.St} (h : Reserved topic id τ a) : a ≠ .run .throwing := by
  rintro rfl; exact h

/-- The consumer's host, whoever acts. -/
theorem near_step {ends : Bool → End} {s : Bool} {topic id : Str} {c : Nat} {t : Tree} {R : Tree} {τ τ' : Action.St} {a : Action.Act}
    (hr : Action.Reachable τ)
    (near : ∀ m ∈ talk τ.bus, idOf m.dg = some id →
      (m.topic = requestTopic topic → m.dg = envelope (bs "request") id t) ∧
      (m.topic = responseTopic topic → Net.echo (ends s).name m = true ∧ responseOf m.dg = R))
    (mine : ∀ q ∈ τ.pending, q.id = id → q.cons = c ∧ q.request = t) (ho : Reserved topic id τ a) (hs : Action.step τ a = .to τ') :
    ∀ m ∈ talk τ'.bus, idOf m.dg = some id →
      (m.topic = requestTopic topic → m.dg = envelope (bs "request") id t) ∧
      (m.topic = responseTopic topic → Net.echo (ends s).name m = true ∧ responseOf m.dg = R) := by
  intro m hm hid
  rcases (Action.talk_step hs).2.2 m hm with h' | h'
  · exact near m h' hid
  · cases h' with
    | publish i => exact ⟨fun e => (ho ⟨.inl e, hid⟩).elim, fun e => (ho ⟨.inr e, hid⟩).elim⟩
    | pubPublish q e' =>
      exact ⟨fun e => (ho [] ⟨.inl (e'.symm.trans e), hid⟩).elim, fun e => (ho [] ⟨.inr (e'.symm.trans e), hid⟩).elim⟩
    | send i q x h1 h2 h3 h4 =>
      rw [h4, Action.idOf_request, Option.some.injEq] at hid
      have := (mine q (List.mem_of_getElem? h1) hid).2
      refine ⟨fun _ => by rw [h4, hid, this], fun e => ?_⟩
      rw [h3, (hr.own.cons _ _ h2).pubTopic] at e
      exact (Action.requestTopic_ne _ _ e).elim
    | respond p' id' u y' h1 h2 h3 =>
      rw [h3, Action.idOf_response, Option.some.injEq] at hid
      subst hid
      rw [(hr.own.provs _ _ h1).pubTopic] at h2
      refine ⟨fun e => (Action.requestTopic_ne _ _ (e.symm.trans h2)).elim, fun e => ?_⟩
      exact (ho rfl ⟨y', h1, Action.responseTopic_inj.1 (h2.symm.trans e)⟩).elim

/-- The provider's host, whoever acts. -/
theorem far_step {e : End} {topic id : Str} {p : Nat} {E : Tree} {f : Tree → Tree} {τ τ' : Action.St} {a : Action.Act}
    (hr : Action.Reachable τ) {y : Prov} (hy : τ.provs[p]? = some y) (ey : y.topic = topic)
    (far : ∀ m ∈ talk τ.bus, idOf m.dg = some id →
      (m.topic = requestTopic topic → Net.echo e.name m = true ∧ m.dg = E) ∧
      (m.topic = responseTopic topic → responseOf m.dg = f E))
    (none : ∀ q ∈ τ.pending, q.id ≠ id) (ho : Action.Honest topic id p τ a) (hb : Action.Obedient p f τ a)
    (hs : Action.step τ a = .to τ') :
    ∀ m ∈ talk τ'.bus, idOf m.dg = some id →
      (m.topic = requestTopic topic → Net.echo e.name m = true ∧ m.dg = E) ∧
      (m.topic = responseTopic topic → responseOf m.dg = f E) := by
  intro m hm hid
  rcases (Action.talk_step hs).2.2 m hm with h' | h'
  · exact far m h' hid
  · cases h' with
    | publish i => exact ⟨fun e => (ho ⟨.inl e, hid⟩).elim, fun e => (ho ⟨.inr e, hid⟩).elim⟩
    | pubPublish q e' =>
      exact ⟨fun e => (ho [] ⟨.inl (e'.symm.trans e), hid⟩).elim, fun e => (ho [] ⟨.inr (e'.symm.trans e), hid⟩).elim⟩
    | send i q x h1 h2 h3 h4 =>
      rw [h4, Action.idOf_request, Option.some.injEq] at hid
      exact absurd hid (none q (List.mem_of_getElem? h1))
    | respond p' id' u y' h1 h2 h3 =>
      rw [h3, Action.idOf_response, Option.some.injEq] at hid
      subst hid
      rw [(hr.own.provs _ _ h1).pubTopic] at h2
      refine ⟨fun e => (Action.requestTopic_ne _ _ (e.symm.trans h2)).elim, fun e => ?_⟩
      have e2 : p' = p := ho rfl ⟨y', h1, Action.responseTopic_inj.1 (h2.symm.trans e)⟩
      subst e2
      obtain ⟨k, t', hev, rfl⟩ := hb id' u rfl
      obtain ⟨z, hz, d, hd, d1, d2, rfl⟩ := hr.hist.reqEv _ _ _ _ hev
      rw [hy] at hz; cases hz
      obtain ⟨-, c1, c2, -⟩ := Bus.C30_no_spurious_delivery τ.bus hr.bus d hd
      rw [d1, (hr.own.provs _ _ hy).subTopic, Action.request_rule, ey] at c2
      rw [h3, Action.responseOf_response, ((far d.msg (List.mem_append_right _ (List.mem_of_getElem? c1)) d2).1 c2).2]

/-- What a step makes the link send obeys what was said on the host. -/
theorem pass_step {ends : Bool → End} {r : Bool} {id : Str} {σ σ' : St} {a : Action.Act} (hs : step ends σ (.act r a) = .to σ')
    (pass : ∀ q, ∀ d ∈ (σ.host q).bus.log, d.sub = (ends q).sub → idOf d.msg.dg = some id → Net.echo (ends q).name d.msg = false →
      d.msg ∈ σ.way (!q) ∨ Net.arrive (hop ends (!q)) d.msg ∈ talk (σ.host (!q)).bus) :
    ∀ q, ∀ d ∈ (σ'.host q).bus.log, d.sub = (ends q).sub → idOf d.msg.dg = some id → Net.echo (ends q).name d.msg = false →
      d.msg ∈ σ'.way (!q) ∨ Net.arrive (hop ends (!q)) d.msg ∈ talk (σ'.host (!q)).bus := by
  obtain ⟨g1, g2, g3, g4⟩ := step_act hs
  intro q d hd e1 e2 e3
  by_cases e : q = r
  · subst e
    rw [g4, g2]
    rcases sends_mem (Action.mono_step g1).log hd e1 e3 with h | h
    · rcases pass q d h e1 e2 e3 with h | h
      · exact .inl (List.mem_append_left _ h)
      · exact .inr h
    · exact .inl (List.mem_append_right _ h)
  · have : q = !r := other e
    subst this
    rw [Bool.not_not, g3]
    rw [g2] at hd
    have := pass _ d hd e1 e2 e3
    rw [Bool.not_not] at this
    rcases this with h | h
    · exact .inl h
    · exact .inr ((Action.talk_step g1).2.1 _ h)

theorem pass_receive {ends : Bool → End} {r : Bool} {id : Str} {σ σ' : St} {i : Nat} (hs : step ends σ (.receive r i) = .to σ')
    (ha : ((σ.host r).bus.w.bus (ends r).bus).attached = true)
    (pass : ∀ q, ∀ d ∈ (σ.host q).bus.log, d.sub = (ends q).sub → idOf d.msg.dg = some id → Net.echo (ends q).name d.msg = false →
      d.msg ∈ σ.way (!q) ∨ Net.arrive (hop ends (!q)) d.msg ∈ talk (σ.host (!q)).bus) :
    ∀ q, ∀ d ∈ (σ'.host q).bus.log, d.sub = (ends q).sub → idOf d.msg.dg = some id → Net.echo (ends q).name d.msg = false →
      d.msg ∈ σ'.way (!q) ∨ Net.arrive (hop ends (!q)) d.msg ∈ talk (σ'.host (!q)).bus := by
  obtain ⟨m, hm, g1, g2, g3, g4⟩ := step_receive hs
  intro q d hd e1 e2 e3
  by_cases e : q = r
  · subst e
    rw [(link_rest g1).2.2.2.2.1] at hd
    rw [g2, g3]
    exact pass q d hd e1 e2 e3
  · have : q = !r := other e
    subst this
    rw [g2] at hd
    have := pass _ d hd e1 e2 e3
    rw [Bool.not_not] at this ⊢
    rcases this with h | h
    · obtain ⟨j, hj, ej⟩ := List.mem_iff_getElem.1 h
      by_cases hij : j = i
      · subst hij
        rw [List.getElem?_eq_getElem hj, ej, Option.some.injEq] at hm
        right; rw [hm]; exact link_said g1 ha
      · left; rw [g4]; exact List.mem_eraseIdx_iff_getElem.2 ⟨j, hj, hij, ej⟩
    · exact .inr ((Action.talk_step g1).2.1 _ h)

theorem course_step {ends : Bool → End} {s : Bool} {topic id : Str} {c p : Nat} {t : Tree} {f : Tree → Tree} {σ σ' : St} {a : Act}
    (hr : ∀ r, Action.Reachable (σ.host r)) (hc : Course ends s topic id c p t f σ)
    {x : Cons} (hx : (σ.host s).cons[c]? = some x) (ex : x.topic = topic) (ax : Heard (ends s) x.pub (σ.host s))
    {y : Prov} (hy : (σ.host (!s)).provs[p]? = some y) (ey : y.topic = topic) (ay : Heard (ends (!s)) y.pub (σ.host (!s)))
    (hl : ∀ r, ((σ.host r).bus.w.bus (ends r).bus).attached = true) (ho : Fair s topic id p f σ a) (hs : step ends σ a = .to σ') :
    Course ends s topic id c p t f σ' := by
  have hr' := reach_step hr hs
  cases a with
  | act r x' =>
    have hpass := pass_step hs hc.pass
    obtain ⟨g1, g2, g3, g4⟩ := step_act hs
    obtain ⟨-, htalk, -⟩ := Action.talk_step g1
    by_cases e : r = s
    · subst e
      have ho := ho.1 rfl
      have near := near_step (hr r) hc.near hc.mine ho g1
      refine ⟨near, g2 ▸ hc.far, ?_, g3 ▸ hc.back, ?_, g2 ▸ hc.free, ?_, g2 ▸ hc.shown, g2 ▸ hc.told, hpass⟩
      · intro m hm hid
        rw [g4] at hm
        rcases List.mem_append.1 hm with hm | hm
        · exact hc.out m hm hid
        · obtain ⟨d, hd, -, rfl, e⟩ := mem_sends hm
          have := near d.msg (said_of_log (hr' r) hd) hid
          exact ⟨this.1, fun h => by rw [(this.2 h).1] at e; cases e⟩
      · intro q hq hid
        rcases pend_step g1 q hq with h | ⟨_, _, _, h⟩ | ⟨_, _, _, h⟩
        · exact hc.mine q h hid
        · subst h; exact absurd hid ho
        · subst h; exact absurd hid ho
      · rcases hc.sent with ⟨q, h, q1, q2, q3⟩ | ⟨m, hm, h⟩
        · rcases sent_step (hr r) g1 (q := q) (by rw [q1]; exact hx) ax h with h | h
          · exact .inl ⟨q, h, q1, q2, q3⟩
          · rw [ex, q2, q3] at h
            exact .inr h
        · exact .inr ⟨m, htalk m hm, h⟩
    · have : r = !s := other e
      subst this
      rw [Bool.not_not] at g2 g4
      obtain ⟨ho, hb⟩ := ho.2 rfl
      have far := far_step (hr _) hy ey hc.far hc.free ho hb g1
      refine ⟨g2 ▸ hc.near, far, g3 ▸ hc.out, ?_, g2 ▸ hc.mine, ?_, g2 ▸ hc.sent, ?_, ?_, hpass⟩
      · intro m hm hid
        rw [g4] at hm
        rcases List.mem_append.1 hm with hm | hm
        · exact hc.back m hm hid
        · obtain ⟨d, hd, -, rfl, e⟩ := mem_sends hm
          have := far d.msg (said_of_log (hr' _) hd) hid
          exact ⟨(fun h => by rw [(this.1 h).1] at e; cases e), this.2⟩
      · intro q hq
        rcases pend_step g1 q hq with h | ⟨_, _, _, h⟩ | ⟨_, _, _, h⟩
        · exact hc.free q h
        · subst h; exact ho
        · subst h; exact ho
      · exact shown_step (hr _) hc.shown hy (fun p' e => by subst e; exact ho) g1
      · intro u hu
        rcases told_step (hr _) g1 hy ay hu with h | h
        · obtain ⟨m, hm, h⟩ := hc.told u h
          exact ⟨m, htalk m hm, h⟩
        · rw [ey] at h; exact h
  | receive r i =>
    have hpass := pass_receive hs (hl r) hc.pass
    obtain ⟨m, hm, g1, g2, g3, g4⟩ := step_receive hs
    obtain ⟨-, htalk, hnew⟩ := Action.talk_step g1
    obtain ⟨k1, k2, k3, k4, k5, -⟩ := link_rest g1
    have hnew : ∀ m' ∈ talk (σ'.host r).bus, m' ∈ talk (σ.host r).bus ∨ m' = Net.arrive (hop ends r) m := by
      intro m' hm'
      rcases hnew m' hm' with h | h
      · exact .inl h
      · cases h; exact .inr rfl
    have hmem := List.mem_of_getElem? hm
    by_cases e : r = s
    · subst e
      refine ⟨?_, g2 ▸ hc.far, g3 ▸ hc.out, ?_, k1 ▸ hc.mine, g2 ▸ hc.free, ?_, g2 ▸ hc.shown, g2 ▸ hc.told, hpass⟩
      · intro m' hm' hid
        rcases hnew m' hm' with h | rfl
        · exact hc.near m' h hid
        · have := hc.back m hmem ((idOf_wire _).symm.trans hid)
          exact ⟨fun h => absurd h this.1, fun h => ⟨echo_arrive _ _ _, by
            show responseOf m.dg.wire = _
            rw [responseOf_wire, this.2 h]⟩⟩
      · rw [g4]; exact fun m hm => hc.back m (List.mem_of_mem_eraseIdx hm)
      · rw [k1]
        rcases hc.sent with h | ⟨m, hm, h⟩
        · exact .inl h
        · exact .inr ⟨m, htalk m hm, h⟩
    · have : r = !s := other e
      subst this
      rw [Bool.not_not] at g2 g3
      refine ⟨g2 ▸ hc.near, ?_, ?_, g3 ▸ hc.back, g2 ▸ hc.mine, k1 ▸ hc.free, g2 ▸ hc.sent, ?_, ?_, hpass⟩
      · intro m' hm' hid
        rcases hnew m' hm' with h | rfl
        · exact hc.far m' h hid
        · have := hc.out m hmem ((idOf_wire _).symm.trans hid)
          exact ⟨fun h => ⟨echo_arrive _ _ _, by
            show m.dg.wire = _
            rw [this.1 h, envelope_wire]⟩, fun h => absurd h this.2⟩
      · rw [g4]; exact fun m hm => hc.out m (List.mem_of_mem_eraseIdx hm)
      · exact hc.shown.keep (fun y h => k2 ▸ h) k5 (fun e h => k4 ▸ h)
      · intro u hu
        rw [k3] at hu
        obtain ⟨m, hm, h⟩ := hc.told u hu
        exact ⟨m, htalk m hm, h⟩

/-- Consumers and providers keep their topics, subscribers and publishers. -/
theorem keeps {ends : Bool → End} {σ σ' : St} {a : Act} (hs : step ends σ a = .to σ') (r : Bool) : Action.Mono (σ.host r) (σ'.host r) := by
  cases a with
  | act s x =>
    obtain ⟨g1, g2, -⟩ := step_act hs
    by_cases e : r = s
    · subst e; exact Action.mono_step g1
    · have : r = !s := other e
      subst this; rw [g2]; exact Action.Mono.refl _
  | receive s i =>
    obtain ⟨m, -, g1, g2, -⟩ := step_receive hs
    by_cases e : r = s
    · subst e; exact Action.mono_step g1
    · have : r = !s := other e
      subst this; rw [g2]; exact Action.Mono.refl _

theorem course_exec {ends : Bool → End} {s : Bool} {topic id : Str} {c p : Nat} {t : Tree} {f : Tree → Tree} {σ σ' : St} {as : List Act}
    (hr : ∀ r, Action.Reachable (σ.host r)) (hc : Course ends s topic id c p t f σ)
    {x : Cons} (hx : (σ.host s).cons[c]? = some x) (ex : x.topic = topic)
    {y : Prov} (hy : (σ.host (!s)).provs[p]? = some y) (ey : y.topic = topic)
    (hl : Throughout ends (fun τ => Heard (ends s) x.pub (τ.host s) ∧ Heard (ends (!s)) y.pub (τ.host (!s)) ∧
      ∀ r, ((τ.host r).bus.w.bus (ends r).bus).attached = true) σ as)
    (ho : Along ends (Fair s topic id p f) σ as) (he : exec ends σ as = .to σ') :
    (∀ r, Action.Reachable (σ'.host r) ∧ Action.Mono (σ.host r) (σ'.host r)) ∧ Course ends s topic id c p t f σ' := by
  induction as generalizing σ x y with
  | nil => cases he; exact ⟨fun r => ⟨hr r, Action.Mono.refl _⟩, hc⟩
  | cons a as ih =>
    obtain ⟨τ, h1, h2⟩ := exec_cons he
    obtain ⟨⟨a1, a2, a3⟩, a4⟩ := hl
    obtain ⟨x', hx', e1, e2, e3⟩ := (keeps h1 s).cons c x hx
    obtain ⟨y', hy', f1, f2, f3⟩ := (keeps h1 (!s)).provs p y hy
    have := ih (reach_step hr h1) (course_step hr hc hx ex a1 hy ey a2 a3 ho.1 h1) hx' (e1.trans ex) hy' (f1.trans ey)
      (by rw [e3, f3]; exact a4 _ h1) (ho.2 _ h1) h2
    exact ⟨fun r => ⟨(this.1 r).1, (keeps h1 r).trans (this.1 r).2⟩, this.2⟩

/-- Nobody throws. -/
theorem fair_calm {ends : Bool → End} {s : Bool} {topic id : Str} {p : Nat} {f : Tree → Tree} {σ σ' : St} {as : List Act}
    (ho : Along ends (Fair s topic id p f) σ as) (he : exec ends σ as = .to σ') (r : Bool) : .act r (.run .throwing) ∉ as := by
  induction as generalizing σ with
  | nil => simp
  | cons a as ih =>
    obtain ⟨τ, h1, h2⟩ := exec_cons he
    intro hm
    rcases List.mem_cons.1 hm with e | hm
    · have := ho.1
      rw [← e] at this
      by_cases hrs : r = s
      · exact this.1 hrs
      · exact (this.2 (other hrs)).1
    · exact ih (ho.2 _ h1) h2 hm

end LP.Remote
