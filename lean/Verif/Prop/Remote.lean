import Verif.Lemma.RemoteCourse
import Verif.Prop.ActionEnd
/-!
# C116: actions across a link
-/
namespace LP.Remote
open LP.Action (Next Bears requestTopic responseTopic idOf responseOf envelope talk Pending Cons Prov Ev Source answers responses)
open LP.Bus (BMsg Delivery)

/-! ## Where answers come from -/

/-- A provider of the topic on this host responded to `id` with `u`. -/
def Responded (topic : Str) (τ : Action.St) (id : Str) (u : Tree) : Prop :=
  ∃ p y, τ.provs[p]? = some y ∧ y.topic = topic ∧ (p, id, u) ∈ τ.replied

theorem replied_mono {τ τ' : Action.St} {a : Action.Act} (h : Action.step τ a = .to τ') : ∀ r ∈ τ.replied, r ∈ τ'.replied := by
  intro r hr
  cases Action.step_eff h with
  | endCb c b h1 h2 h3 h4 h5 h6 => rw [(Action.endCb_more τ b c).2.2.1]; exact hr
  | deliver ch b d h1 h2 h3 h4 h5 h6 => rw [(Action.dispatch_same { τ with bus := b } d).2.2.2.2.2.2.2.1]; exact hr
  | respond p' id' u' y' b h1 h2 => exact List.mem_append_left _ hr
  | _ => exact hr

theorem respond_replied {τ τ' : Action.St} {p : Nat} {id : Str} {u : Tree} (h : Action.step τ (.respond p id u) = .to τ') :
    (p, id, u) ∈ τ'.replied := by
  cases Action.step_eff h with
  | respond p' id' u y' b h1 h2 => exact List.mem_append_right _ (List.mem_singleton.2 rfl)

theorem initial_silent {name : Str} {τ : Action.St} (h : Action.initial name = some τ) : talk τ.bus = [] := by
  simp only [Action.initial, Option.map_eq_some_iff] at h
  obtain ⟨b, hb, rfl⟩ := h
  unfold Bus.initial at hb
  split at hb <;> cases hb
  rfl

theorem Responded.mono {topic id : Str} {u : Tree} {τ τ' : Action.St} {a : Action.Act} (h : Action.step τ a = .to τ')
    (hr : Responded topic τ id u) : Responded topic τ' id u := by
  obtain ⟨p, y, h1, h2, h3⟩ := hr
  obtain ⟨y', e1, e2, -⟩ := (Action.mono_step h).provs p y h1
  exact ⟨p, y', e1, e2.trans h2, replied_mono h _ h3⟩

/-- Every response on a host was made there or came in through the link; every response on its way was made where it
comes from. -/
structure Origin (ends : Bool → End) (topic : Str) (σ : St) : Prop where
  said : ∀ r, ∀ m ∈ talk (σ.host r).bus, m.topic = responseTopic topic →
    ∃ id u, (Responded topic (σ.host r) id u ∧ m.dg = envelope (bs "response") id u) ∨
      (Net.echo (ends r).name m = true ∧ Responded topic (σ.host (!r)) id u ∧ m.dg = (envelope (bs "response") id u).wire)
  way : ∀ r, ∀ m ∈ σ.way r, m.topic = responseTopic topic →
    ∃ id u, Responded topic (σ.host (!r)) id u ∧ m.dg = envelope (bs "response") id u

theorem origin_step {ends : Bool → End} {topic : Str} {σ σ' : St} {a : Act} (hr : ∀ r, Action.Reachable (σ.host r))
    (h : Origin ends topic σ) (hp : Proper topic σ a) (hs : step ends σ a = .to σ') : Origin ends topic σ' := by
  have hr' := reach_step hr hs
  have grow : ∀ r id u, Responded topic (σ.host r) id u → Responded topic (σ'.host r) id u := by
    intro r id u hu
    cases a with
    | act s x =>
      obtain ⟨g1, g2, -⟩ := step_act hs
      by_cases e : r = s
      · subst e; exact hu.mono g1
      · have := other e; subst this; rw [g2]; exact hu
    | receive s i =>
      obtain ⟨m, -, g1, g2, -⟩ := step_receive hs
      by_cases e : r = s
      · subst e; exact hu.mono g1
      · have := other e; subst this; rw [g2]; exact hu
  have old : ∀ r, ∀ m ∈ talk (σ.host r).bus, m.topic = responseTopic topic →
      ∃ id u, (Responded topic (σ'.host r) id u ∧ m.dg = envelope (bs "response") id u) ∨
      (Net.echo (ends r).name m = true ∧ Responded topic (σ'.host (!r)) id u ∧ m.dg = (envelope (bs "response") id u).wire) := by
    intro r m hm ht
    obtain ⟨id, u, ⟨h1, h2⟩ | ⟨h1, h2, h3⟩⟩ := h.said r m hm ht
    · exact ⟨id, u, .inl ⟨grow _ _ _ h1, h2⟩⟩
    · exact ⟨id, u, .inr ⟨h1, grow _ _ _ h2, h3⟩⟩
  have oldWay : ∀ r, ∀ m ∈ σ.way r, m.topic = responseTopic topic →
      ∃ id u, Responded topic (σ'.host (!r)) id u ∧ m.dg = envelope (bs "response") id u := by
    intro r m hm ht
    obtain ⟨id, u, h1, h2⟩ := h.way r m hm ht
    exact ⟨id, u, grow _ _ _ h1, h2⟩
  cases a with
  | act s x =>
    obtain ⟨g1, g2, g3, g4⟩ := step_act hs
    have said : ∀ r, ∀ m ∈ talk (σ'.host r).bus, m.topic = responseTopic topic →
      ∃ id u, (Responded topic (σ'.host r) id u ∧ m.dg = envelope (bs "response") id u) ∨
      (Net.echo (ends r).name m = true ∧ Responded topic (σ'.host (!r)) id u ∧ m.dg = (envelope (bs "response") id u).wire) := by
      intro r m hm ht
      by_cases e : r = s
      · subst e
        rcases (Action.talk_step g1).2.2 m hm with h' | h'
        · exact old r m h' ht
        · cases h' with
          | publish i => exact absurd ht hp
          | pubPublish q e => exact absurd (e.symm.trans ht) hp
          | send i q x h1 h2 h3 h4 =>
            rw [h3, ((hr r).own.cons _ _ h2).pubTopic] at ht
            exact (Action.requestTopic_ne _ _ ht).elim
          | respond p' id' u y' h1 h2 h3 =>
            rw [((hr r).own.provs _ _ h1).pubTopic] at h2
            obtain ⟨y2, k1, k2, -⟩ := (Action.mono_step g1).provs _ _ h1
            refine ⟨id', u, .inl ⟨⟨p', y2, k1, k2.trans (Action.responseTopic_inj.1 (h2.symm.trans ht)), ?_⟩, h3⟩⟩
            exact respond_replied g1
      · have := other e; subst this; rw [g2] at hm; exact old _ m hm ht
    refine ⟨said, fun r m hm ht => ?_⟩
    by_cases e : r = s
    · subst e; rw [g3] at hm; exact oldWay _ m hm ht
    · have := other e; subst this
      rw [g4] at hm
      rcases List.mem_append.1 hm with hm | hm
      · exact oldWay _ m hm ht
      · obtain ⟨d, hd, -, rfl, e⟩ := mem_sends hm
        rw [Bool.not_not]
        obtain ⟨id, u, h1 | ⟨h1, -⟩⟩ := said s d.msg (said_of_log (hr' s) hd) ht
        · exact ⟨id, u, h1⟩
        · rw [h1] at e; cases e
  | receive s i =>
    obtain ⟨m, hm, g1, g2, g3, g4⟩ := step_receive hs
    refine ⟨fun r m' hm' ht => ?_, fun r m' hm' ht => ?_⟩
    · by_cases e : r = s
      · subst e
        rcases (Action.talk_step g1).2.2 m' hm' with h' | h'
        · exact old r m' h' ht
        · cases h'
          obtain ⟨id, u, k1, k2⟩ := oldWay r m (List.mem_of_getElem? hm) ht
          refine ⟨id, u, .inr ⟨echo_arrive _ _ _, k1, ?_⟩⟩
          show m.dg.wire = _
          rw [k2]
      · have := other e; subst this; rw [g2] at hm'; exact old _ m' hm' ht
    · by_cases e : r = s
      · subst e; rw [g4] at hm'; exact oldWay _ m' (List.mem_of_mem_eraseIdx hm') ht
      · have := other e; subst this; rw [g3] at hm'; exact oldWay _ m' hm' ht

theorem origin_reach {ends : Bool → End} {σ σ' : St} {as : List Act} (hr : ∀ r, Action.Reachable (σ.host r))
    (he : exec ends σ as = .to σ') : ∀ r, Action.Reachable (σ'.host r) := by
  induction as generalizing σ with
  | nil => cases he; exact hr
  | cons a as ih =>
    obtain ⟨τ, h1, h2⟩ := exec_cons he
    exact ih (reach_step hr h1) h2

theorem origin_exec {ends : Bool → End} {topic : Str} {σ σ' : St} {as : List Act} (hr : ∀ r, Action.Reachable (σ.host r))
    (h : Origin ends topic σ) (hp : Along ends (Proper topic) σ as) (he : exec ends σ as = .to σ') :
    (∀ r, Action.Reachable (σ'.host r)) ∧ Origin ends topic σ' := by
  induction as generalizing σ with
  | nil => cases he; exact ⟨hr, h⟩
  | cons a as ih =>
    obtain ⟨τ, h1, h2⟩ := exec_cons he
    exact ih (reach_step hr h1) (origin_step hr h hp.1 h1) (hp.2 _ h1) h2

/-- Two hosts joined by links, whatever the plugins and threads on both do: as long as no client publishes on the response
topic itself, whatever the callback of a request is called with is what a provider of the topic responded with to this id:
unchanged if the provider is on the same host, serialised and read back (once, not more) if it is on the other one. With
distinct ids and a callback that does not throw it is called at most once, however many providers there are. -/
theorem C116_answer_has_source (ends : Bool → End) (σ₀ σ : St) (as : List Act) (s : Bool) (c : Nat) (x : Cons) (id : Str)
    (cb : Action.Cb) (v : Tree) (h0 : Initial σ₀) (he : exec ends σ₀ as = .to σ) (hx : (σ.host s).cons[c]? = some x)
    (hp : Along ends (Proper x.topic) σ₀ as) (hev : Ev.answered c id cb v ∈ (σ.host s).evs) :
    (∃ u, (Responded x.topic (σ.host s) id u ∧ v = u) ∨ (Responded x.topic (σ.host (!s)) id u ∧ v = u.wire)) ∧
    (Action.Distinct (σ.host s) → (c, id) ∉ (σ.host s).threw → (answers c id (σ.host s).evs).length ≤ 1) := by
  have hr₀ : ∀ r, Action.Reachable (σ₀.host r) := fun r => by
    obtain ⟨⟨name, hn⟩, -⟩ := h0 r
    exact ⟨name, _, [], hn, rfl⟩
  have ho : Origin ends x.topic σ₀ := by
    refine ⟨fun r m hm => ?_, fun r m hm => ?_⟩
    · obtain ⟨⟨name, hn⟩, -⟩ := h0 r
      rw [initial_silent hn] at hm; cases hm
    · rw [(h0 r).2] at hm; cases hm
  obtain ⟨hr, ho⟩ := origin_exec hr₀ ho hp he
  obtain ⟨⟨a, ha, a1, a2, -⟩, x', hx', d, hd, d1, d2, rfl⟩ := Action.C46_callback_only_for_own_response _ (hr s) c id cb v hev
  rw [hx] at hx'; cases hx'
  constructor
  · obtain ⟨-, c1, c2, -⟩ := Bus.C30_no_spurious_delivery _ (hr s).bus d hd
    rw [d1, ((hr s).own.cons _ _ hx).subTopic, Action.response_rule] at c2
    obtain ⟨id', u, ⟨h1, h2⟩ | ⟨-, h1, h2⟩⟩ := ho.said s d.msg (said_of_log (hr s) hd) c2
    · rw [h2, Action.idOf_response, Option.some.injEq] at d2
      subst d2
      exact ⟨u, .inl ⟨h1, by rw [h2, Action.responseOf_response]⟩⟩
    · rw [h2, idOf_wire, Action.idOf_response, Option.some.injEq] at d2
      subst d2
      exact ⟨u, .inr ⟨h1, by rw [h2, responseOf_wire, Action.responseOf_response]⟩⟩
  · intro hd ht
    have := Action.C45_at_most_once (σ.host s) (hr s) hd a ha (by rw [a1, a2]; exact ht)
    rwa [a1, a2] at this

/-! ## From request to response -/

/-- A consumer on one host and a provider of the same topic on another, the hosts joined by links. The consumer requests with
a new id; the provider, whenever it is shown a request, answers it with `f` of what it was shown. Both stay registered and
served, the links in operation, their own buses not named like senders behind the link; nobody interferes. Then, in every
schedule of all threads of both hosts and whatever else passes through, once everything sent has been distributed the
consumer's callback has been called exactly once for this request, with the serialised form of `f` of the serialised
request. -/
theorem C116_remote_request (ends : Bool → End) (σ₀ σ₁ σ : St) (as : List Act) (s : Bool) (c p : Nat) (id : Str) (k : Nat) (t : Tree)
    (f : Tree → Tree) (x : Cons) (y : Prov) (hr : ∀ r, Action.Reachable (σ₀.host r)) (hx : (σ₀.host s).cons[c]? = some x)
    (hy : (σ₀.host (!s)).provs[p]? = some y) (hT : x.topic = y.topic) (hcb : y.cb ≠ none) (hfresh : Fresh σ₀ id)
    (hend : ∀ r, (ends r).sub < (σ₀.host r).bus.w.ns)
    (hreq : step ends σ₀ (.act s (.request c id k t)) = .to σ₁) (he : exec ends σ₁ as = .to σ)
    (hlive : Throughout ends (fun τ => (∀ r, Up (ends r) (τ.host r)) ∧ Bus.Live (τ.host s).bus.w x.sub ∧
      Bus.Live (τ.host (!s)).bus.w y.sub ∧ Heard (ends s) x.pub (τ.host s) ∧ Heard (ends (!s)) y.pub (τ.host (!s))) σ₁ as)
    (fair : Along ends (Fair s y.topic id p f) σ₁ as) (hdist : Action.Distinct (σ.host s)) (hset : Settled σ)
    (hans : ∀ k' t', Ev.requested p k' id t' ∈ (σ.host (!s)).evs → (p, id, f t') ∈ (σ.host (!s)).replied) :
    answers c id (σ.host s).evs = [.answered c id (.user k) (f (envelope (bs "request") id t.wire)).wire] := by
  obtain ⟨g1, g2, g3, g4⟩ := step_act hreq
  have hr₁ := reach_step hr hreq
  have e₁ : σ₁.host s = Action.register (σ₀.host s) c x id (.user k) t none := by
    simp only [Action.step, hx, Next.to.injEq] at g1; exact g1.symm
  have hb₁ : ∀ r, (σ₁.host r).bus = (σ₀.host r).bus := by
    intro r
    by_cases e : r = s
    · subst e; rw [e₁]; rfl
    · rw [other e, g2]
  have hw₁ : ∀ r, σ₁.way r = σ₀.way r := by
    intro r
    by_cases e : r = s
    · subst e; exact g3
    · rw [other e, g4]; simp [sends, hb₁]
  have ha₁ : (⟨c, id, .user k, t, (σ₀.host s).bus.log.length⟩ : Action.Asked) ∈ (σ₁.host s).asked := by rw [e₁]; simp [Action.register]
  have hy₁ : (σ₁.host (!s)).provs[p]? = some y := by rw [g2]; exact hy
  obtain ⟨x₁, hx₁, x1, x2, x3⟩ := (keeps hreq s).cons c x hx
  -- the invariant
  have new : ∀ r, ∀ m ∈ talk (σ₁.host r).bus, idOf m.dg ≠ some id := fun r m hm => by
    rw [hb₁] at hm; exact (hfresh r).1.1 m hm
  have hstart : Course ends s y.topic id c p t f σ₁ := by
    refine ⟨fun m hm hid => absurd hid (new _ m hm), fun m hm hid => absurd hid (new _ m hm), ?_, ?_, ?_, ?_, ?_, ?_, ?_, ?_⟩
    · intro m hm hid; rw [hw₁] at hm; exact absurd hid ((hfresh _).2 m hm)
    · intro m hm hid; rw [hw₁] at hm; exact absurd hid ((hfresh _).2 m hm)
    · intro q hq hid
      rw [e₁] at hq
      rcases List.mem_append.1 hq with hq | hq
      · obtain ⟨a, ha, -, a2, -⟩ := (hr s).pendAsked q hq
        exact absurd (a2.trans hid) ((hfresh s).1.2.1 a ha)
      · simp only [List.mem_singleton] at hq; subst hq; exact ⟨rfl, rfl⟩
    · intro q hq hid
      rw [g2] at hq
      obtain ⟨a, ha, -, a2, -⟩ := (hr (!s)).pendAsked q hq
      exact absurd (a2.trans hid) ((hfresh _).1.2.1 a ha)
    · left; rw [e₁]; exact ⟨⟨c, id, t, none⟩, by simp [Action.register], rfl, rfl, rfl⟩
    · intro y' hy'
      rw [hy₁] at hy'; cases hy'
      exact ⟨hcb, fun d hd _ hid => absurd hid (new _ _ (said_of_log (hr₁ _) hd))⟩
    · intro u hu
      rw [g2] at hu
      exact absurd rfl ((hfresh _).1.2.2 _ hu)
    · exact fun r d hd _ hid => absurd hid (new _ _ (said_of_log (hr₁ _) hd))
  obtain ⟨hmono, hc⟩ := course_exec hr₁ hstart hx₁ (x1.trans hT) hy₁ rfl
    (by rw [x3]; exact throughout_imp (fun _ h => ⟨h.2.2.2.1, h.2.2.2.2, fun r => (h.1 r).2.2⟩) hlive) fair he
  have hσ := fun r => (hmono r).1
  obtain ⟨x', hx', f1, f2, f3⟩ := (hmono s).2.cons c x₁ hx₁
  obtain ⟨y', hy', h1, h2, h3⟩ := (hmono (!s)).2.provs p y hy₁
  have old : ∀ r, ∀ m : BMsg, idOf m.dg = some id → m ∉ (σ₁.host r).bus.published := fun r m hid hm =>
    new r m (List.mem_append_right _ hm) hid
  have talked : ∀ r, talk (σ.host r).bus = (σ.host r).bus.published := fun r => by simp [talk, (hset r).2.1]
  -- what is published on a host reaches a subscriber
  have reach : ∀ r sub, sub < (σ₁.host r).bus.w.ns → Throughout ends (fun τ => Bus.Live (τ.host r).bus.w sub) σ₁ as →
      ∀ m ∈ talk (σ.host r).bus, idOf m.dg = some id → Bus.TopicRule ((σ.host r).bus.w.sub sub).topic m.topic →
      ∃ d ∈ (σ.host r).bus.log, d.sub = sub ∧ d.msg = m ∧ d ∉ (σ₁.host r).bus.log := by
    intro r sub hsub hlv m hm hid ht
    obtain ⟨l, l1, l2, l3⟩ := project he r
    rw [talked] at hm
    exact Action.delivered (hr₁ r) l1 hsub (l3 _ hlv) (fun h => fair_calm fair he r (l2 h)) (hset r).1 hm (old r m hid) ht
  have upLive : ∀ r, Throughout ends (fun τ => Bus.Live (τ.host r).bus.w (ends r).sub) σ₁ as := fun r =>
    throughout_imp (fun _ h => (h.1 r).1) hlive
  have upTopic : ∀ r, ((σ.host r).bus.w.sub (ends r).sub).topic = bs "/**/*" := by
    have : ∀ {τ : St} {bs' : List Act}, exec ends τ bs' = .to σ → Throughout ends (fun τ => ∀ r, Up (ends r) (τ.host r)) τ bs' →
        ∀ r, Up (ends r) (σ.host r) := by
      intro τ bs'
      induction bs' generalizing τ with
      | nil => intro h h'; cases h; exact h'
      | cons a l ih =>
        intro h h'
        obtain ⟨ρ, k1, k2⟩ := exec_cons h
        exact ih k2 (h'.2 _ k1)
    exact fun r => (this he (throughout_imp (fun _ h => h.1) hlive) r).2.1
  have over : ∀ r, ∀ m ∈ talk (σ.host r).bus, idOf m.dg = some id → Net.echo (ends r).name m = false →
      Net.arrive (hop ends (!r)) m ∈ talk (σ.host (!r)).bus := by
    intro r m hm hid hecho
    obtain ⟨d, hd, d1, rfl, -⟩ := reach r (ends r).sub (by rw [hb₁]; exact hend r) (upLive r) m hm hid (by rw [upTopic]; exact .inr rfl)
    rcases hc.pass r d hd d1 hid hecho with h | h
    · rw [(hset (!r)).2.2.2] at h; cases h
    · exact h
  -- the request reaches the other host and the provider
  obtain ⟨m, hm, m1, m2, m3⟩ : ∃ m ∈ talk (σ.host s).bus, m.topic = requestTopic y.topic ∧ m.dg = envelope (bs "request") id t ∧
      Net.echo (ends s).name m = false := by
    rcases hc.sent with h' | h'
    · obtain ⟨q, hq, -⟩ := h'
      rw [(hset s).2.2.1] at hq; cases hq
    · exact h'
  have hreqd := over s m hm (by rw [m2]; rfl) m3
  have hidq : idOf (Net.arrive (hop ends (!s)) m).dg = some id := by
    show idOf m.dg.wire = _
    rw [idOf_wire, m2]; rfl
  obtain ⟨d, hd, d1, d2, -⟩ := reach (!s) y.sub ((hr₁ _).own.provs _ _ hy₁).sub (throughout_imp (fun _ h => h.2.2.1) hlive) _ hreqd hidq
    (by rw [← h2, ((hσ _).own.provs _ _ hy').subTopic, h1]; exact .inl m1.symm)
  -- and is answered
  obtain ⟨k', hk'⟩ := (hc.shown y' hy').2 d hd (d1.trans h2.symm) (by rw [d2]; exact hidq)
  obtain ⟨r, hr', r1, r2, r3⟩ := hc.told _ (hans k' _ hk')
  -- the answer comes back
  have hback := over (!s) r hr' (by rw [r2]; rfl) r3
  rw [Bool.not_not] at hback
  have hidr : idOf (Net.arrive (hop ends s) r).dg = some id := by
    show idOf r.dg.wire = _
    rw [idOf_wire, r2]; rfl
  have s2 : x.sub < (σ₁.host s).bus.w.ns := x2 ▸ ((hr₁ s).own.cons _ _ hx₁).sub
  obtain ⟨e, he', e1, e2, e3⟩ := reach s x.sub s2 (throughout_imp (fun _ h => h.2.1) hlive) _ hback hidr
    (by rw [← x2, ← f2, ((hσ s).own.cons _ _ hx').subTopic, f1, x1, hT]; exact .inl r1.symm)
  -- exactly the first response counts
  have hthrew : (c, id) ∉ (σ.host s).threw := by
    obtain ⟨l, l1, l2, -⟩ := project he s
    rw [Action.threw_same (fun h => fair_calm fair he s (l2 h)) l1]
    intro hmem
    have : (c, id) ∈ (σ₀.host s).threw := by rw [e₁] at hmem; exact hmem
    obtain ⟨_, a, ha, -, a2, -⟩ := (hr s).hist.threw c id this
    exact (hfresh s).1.2.1 a ha a2
  obtain ⟨z, hz, hz'⟩ := Action.C45_first_response_once (σ.host s) (hσ s) hdist _ ((hmono s).2.asked.subset ha₁) hthrew
  simp only at hz hz'
  rw [hx'] at hz; cases hz
  rw [hz']
  have hsplit : e ∈ (σ.host s).bus.log.drop (σ₀.host s).bus.log.length := by
    obtain ⟨l, hl⟩ := (hmono s).2.log
    rw [hb₁] at hl e3
    rw [← hl] at he' ⊢
    rw [List.drop_left]
    rcases List.mem_append.1 he' with h' | h'
    · exact absurd h' e3
    · exact h'
  have hmem : e ∈ responses x'.sub id ((σ.host s).bus.log.drop (σ₀.host s).bus.log.length) := by
    simp only [responses, List.mem_filter, Bool.and_eq_true, beq_iff_eq]
    exact ⟨hsplit, by rw [e1, f2, x2], by rw [e2]; exact hidr⟩
  obtain ⟨d₀, rest, hrs⟩ := List.exists_cons_of_ne_nil (List.ne_nil_of_mem hmem)
  rw [hrs]
  have h0 : d₀ ∈ responses x'.sub id ((σ.host s).bus.log.drop (σ₀.host s).bus.log.length) := by rw [hrs]; exact List.mem_cons_self
  simp only [responses, List.mem_filter, Bool.and_eq_true, beq_iff_eq] at h0
  obtain ⟨h01, h02, h03⟩ := h0
  obtain ⟨-, q1, q2, -⟩ := Bus.C30_no_spurious_delivery (σ.host s).bus (hσ s).bus d₀ (List.mem_of_mem_drop h01)
  rw [h02, ((hσ s).own.cons _ _ hx').subTopic, Action.response_rule, f1, x1, hT] at q2
  have := ((hc.near d₀.msg (List.mem_append_right _ (List.mem_of_getElem? q1)) h03).2 q2).2
  simp [this]

/-! ## A case -/

/-- Two fresh hosts. -/
def start : Option St := (Action.initial (bs "r")).map (fun a => ⟨fun _ => a, fun _ => []⟩)

/-- The links of the example: subscriber 1 and the root on both hosts. -/
def eastWest (s : Bool) : End := ⟨if s then bs "east" else bs "west", 1, 0⟩

/-- A consumer on the one host, a provider on the other, a link on each, both buses started. -/
def prepare : List Act :=
  [.act false (.bus (.createPub 0 (bs "a/request"))), .act false (.bus (.createSub 0 (bs "a/response") none)),
   .act false (.consumer 0 0 (bs "a")), .act false (.bus (.createSub 0 (bs "/**/*") (some 0))), .act false (.bus .start),
   .act true (.bus (.createSub 0 (bs "a/request") none)), .act true (.bus (.createPub 0 (bs "a/response"))),
   .act true (.provider 0 0 (bs "a") (some 9)), .act true (.bus (.createSub 0 (bs "/**/*") (some 0))), .act true (.bus .start)]

/-- Push the first message and let the bus thread work until it waits again. -/
def settle (s : Bool) (n : Nat) : List Act :=
  .act s (.bus (.push 0)) :: List.replicate n (.act s (.run .go))

/-- The request goes out, crosses together with some other message, is answered, and the answer comes back. -/
def course : List Act :=
  [.act false (.send 0), .act true (.bus (.publish 0 ⟨bs "r", bs "chat", .value (.int 3)⟩))] ++ settle false 17 ++
    [.receive true 0, .act true (.bus (.push 0))] ++ settle true 27 ++ [.act true (.respond 0 (bs "1") (.value (.int 7)))] ++
    settle true 17 ++ [.receive false 0, .receive false 0, .act false (.bus (.push 0))] ++ settle false 27

/-- Check a state condition and an event condition along an execution. -/
def watch (P : St → Bool) (Q : St → Act → Bool) (k : St → Bool) : St → List Act → Bool
  | σ, [] => P σ && k σ
  | σ, a :: as => P σ && Q σ a && match step eastWest σ a with
    | .to σ' => watch P Q k σ' as
    | _ => false

theorem watch_sound {P : St → Bool} {Q : St → Act → Bool} {k : St → Bool} {P' : St → Prop} {Q' : St → Act → Prop}
    (hP : ∀ τ, P τ = true → P' τ) (hQ : ∀ τ a, Q τ a = true → Q' τ a) {σ : St} {as : List Act} (h : watch P Q k σ as = true) :
    Throughout eastWest P' σ as ∧ Along eastWest Q' σ as ∧ ∃ σ', exec eastWest σ as = .to σ' ∧ k σ' = true := by
  induction as generalizing σ with
  | nil =>
    simp only [watch, Bool.and_eq_true] at h
    exact ⟨hP _ h.1, trivial, σ, rfl, h.2⟩
  | cons a as ih =>
    simp only [watch, Bool.and_eq_true] at h
    obtain ⟨⟨h1, h2⟩, h3⟩ := h
    split at h3
    · rename_i τ hτ
      obtain ⟨i1, i2, σ', i3, i4⟩ := ih h3
      refine ⟨⟨hP _ h1, fun ρ e => ?_⟩, ⟨hQ _ _ h2, fun ρ e => ?_⟩, σ', by simp only [exec, hτ]; exact i3, i4⟩
      · rw [hτ] at e; cases e; exact i1
      · rw [hτ] at e; cases e; exact i2
    · cases h3

/-- What the example checks about every state: both links and the consumer and provider are served. -/
def served (σ : St) : Bool :=
  [false, true].all (fun r => Action.atRoot 0 0 (σ.host r).bus && Action.atRoot 1 0 (σ.host r).bus &&
    ((σ.host r).bus.w.sub 1).topic == bs "/**/*" &&
    !Net.echo (eastWest r).name ⟨((σ.host r).bus.w.bus ((σ.host r).bus.w.pub 0).bus).name, [], .empty⟩)

theorem served_sound {σ : St} (h : served σ = true) (r : Bool) : Up (eastWest r) (σ.host r) ∧ Bus.Live (σ.host r).bus.w 0 ∧
    Heard (eastWest r) 0 (σ.host r) := by
  have h := List.all_eq_true.1 h r (by cases r <;> simp)
  simp only [Bool.and_eq_true, Bool.not_eq_true', beq_iff_eq] at h
  obtain ⟨⟨⟨h1, h2⟩, h3⟩, h4⟩ := h
  obtain ⟨k1, k2⟩ := Action.atRoot_sound h1
  obtain ⟨k3, -⟩ := Action.atRoot_sound h2
  simp only [Action.atRoot, Bool.and_eq_true] at h1
  refine ⟨⟨k3, h3, h1.2⟩, k1, k2, fun ht => ?_⟩
  rw [← echo_iff (m := ⟨((σ.host r).bus.w.bus ((σ.host r).bus.w.pub 0).bus).name, [], .empty⟩)] at ht
  rw [ht] at h4; cases h4

/-- The events of the example. -/
def expected (σ : St) : Act → Bool
  | .act false (.send _) => true
  | .act false (.bus (.push _)) => true
  | .act false (.run .go) => true
  | .act false _ => false
  | .act true a => Action.expected (σ.host true) a
  | .receive _ _ => true

theorem expected_sound {σ : St} {a : Act} (h : expected σ a = true) : Fair false (bs "a") (bs "1") 0 Action.echoed σ a := by
  unfold expected at h
  split at h <;> try cases h
  · exact ⟨fun _ => trivial, by simp⟩
  · exact ⟨fun _ => trivial, by simp⟩
  · exact ⟨fun _ => trivial, by simp⟩
  · exact ⟨by simp, fun _ => Action.expected_sound h⟩
  · trivial

/-- What the example checks about the state before the request. -/
def before (σ : St) : Bool :=
  ((σ.host false).cons.map (fun x => (x.topic, x.sub, x.pub)) == [(bs "a", 0, 0)]) &&
    ((σ.host true).provs.map (fun x => (x.topic, x.sub, x.pub, x.cb)) == [(bs "a", 0, 0, some 9)]) &&
    [false, true].all (fun r => ((σ.host r).bus.inflight ++ (σ.host r).bus.published).isEmpty && (σ.host r).asked.isEmpty &&
      (σ.host r).replied.isEmpty && (σ.way r).isEmpty && decide (1 < (σ.host r).bus.w.ns))

/-- What the example checks about the final state. -/
def after (σ : St) : Bool :=
  [false, true].all (fun r => (σ.host r).bus.inflight.isEmpty && (σ.host r).pending.isEmpty && (σ.host r).bus.w.queue.isEmpty &&
    (match (σ.host r).bus.phase with | .asleep => true | _ => false) && (σ.way r).isEmpty) &&
    ((σ.host false).asked.map (fun a => (a.cons, a.id)) == [(0, bs "1")]) &&
    (σ.host true).replied.any (fun r => match r with
      | (0, id, .value (.int 7)) => id == bs "1"
      | _ => false) &&
    (σ.host true).evs.all (fun e => match e with
      | .requested 0 _ id t => id != bs "1" || Action.asInt (Action.echoed t) == some 7
      | _ => true)

/-- The clients of the example keep off the response topic. -/
def keepsOff (σ : St) : Act → Bool
  | .act _ (.bus (.publish _ m)) => m.topic != bs "a/response"
  | .act s (.bus (.pubPublish q _)) => ((σ.host s).bus.w.pub q).topic != bs "a/response"
  | _ => true

theorem keepsOff_sound {σ : St} {a : Act} (h : keepsOff σ a = true) : Proper (bs "a") σ a := by
  unfold keepsOff at h
  split at h
  · exact (bne_iff_ne.1 h : _ ≠ responseTopic (bs "a"))
  · exact (bne_iff_ne.1 h : _ ≠ responseTopic (bs "a"))
  · rename_i h1 h2
    unfold Proper
    split
    · exact absurd rfl (h1 _ _ _)
    · exact absurd rfl (h2 _ _ _)
    · trivial

/-- All the hypotheses hold of two hosts with one exchange between them. -/
example : ∃ σ₀ σ₁ σ x y, (∀ r, Action.Reachable (σ₀.host r)) ∧ (σ₀.host false).cons[0]? = some x ∧ (σ₀.host true).provs[0]? = some y ∧
    x.topic = y.topic ∧ y.cb ≠ none ∧ Fresh σ₀ (bs "1") ∧ (∀ r, (eastWest r).sub < (σ₀.host r).bus.w.ns) ∧
    step eastWest σ₀ (.act false (.request 0 (bs "1") 5 (.value (.int 7)))) = .to σ₁ ∧ exec eastWest σ₁ course = .to σ ∧
    Throughout eastWest (fun τ => (∀ r, Up (eastWest r) (τ.host r)) ∧ Bus.Live (τ.host false).bus.w x.sub ∧
      Bus.Live (τ.host true).bus.w y.sub ∧ Heard (eastWest false) x.pub (τ.host false) ∧ Heard (eastWest true) y.pub (τ.host true)) σ₁ course ∧
    Along eastWest (Fair false y.topic (bs "1") 0 Action.echoed) σ₁ course ∧ Action.Distinct (σ.host false) ∧ Settled σ ∧
    (∀ k' t', Ev.requested 0 k' (bs "1") t' ∈ (σ.host true).evs → (0, bs "1", Action.echoed t') ∈ (σ.host true).replied) := by
  have key : ∃ s, start = some s ∧ watch (fun _ => true) (fun _ _ => true) (fun σ₀ => before σ₀ &&
      watch (fun _ => true) (fun _ _ => true) (fun σ₁ => watch served expected after σ₁ course) σ₀
        [.act false (.request 0 (bs "1") 5 (.value (.int 7)))]) s prepare = true := by
    have h : (match start with
      | none => false
      | some s => watch (fun _ => true) (fun _ _ => true) (fun σ₀ => before σ₀ &&
          watch (fun _ => true) (fun _ _ => true) (fun σ₁ => watch served expected after σ₁ course) σ₀
            [.act false (.request 0 (bs "1") 5 (.value (.int 7)))]) s prepare) = true := by decide +kernel
    cases hs : start with
    | none => rw [hs] at h; cases h
    | some s => rw [hs] at h; exact ⟨s, rfl, h⟩
  obtain ⟨s, hs, hw⟩ := key
  have hr : ∀ r, Action.Reachable (s.host r) := by
    simp only [start, Option.map_eq_some_iff] at hs
    obtain ⟨a, ha, rfl⟩ := hs
    exact fun r => ⟨_, a, [], ha, rfl⟩
  obtain ⟨-, -, σ₀, h1, h2⟩ := watch_sound (P' := fun _ => True) (Q' := fun _ _ => True) (fun _ _ => trivial) (fun _ _ _ => trivial) hw
  simp only [Bool.and_eq_true] at h2
  obtain ⟨e1, h2⟩ := h2
  obtain ⟨-, -, σ₁, h3, h4⟩ := watch_sound (P' := fun _ => True) (Q' := fun _ _ => True) (fun _ _ => trivial) (fun _ _ _ => trivial) h2
  obtain ⟨w1, w2, σ, h5, e3⟩ := watch_sound (P' := fun τ => ∀ r, Up (eastWest r) (τ.host r) ∧ Bus.Live (τ.host r).bus.w 0 ∧
    Heard (eastWest r) 0 (τ.host r)) (Q' := Fair false (bs "a") (bs "1") 0 Action.echoed) (fun _ h => served_sound h)
    (fun _ _ h => expected_sound h) h4
  have hσ₀ := origin_reach hr h1
  obtain ⟨τ, h3', h3''⟩ := exec_cons h3
  cases h3''
  simp only [before, Bool.and_eq_true, beq_iff_eq] at e1
  obtain ⟨⟨b1, b2⟩, b3⟩ := e1
  have b3 : ∀ r, ((σ₀.host r).bus.inflight ++ (σ₀.host r).bus.published) = [] ∧ (σ₀.host r).asked = [] ∧ (σ₀.host r).replied = [] ∧
      σ₀.way r = [] ∧ 1 < (σ₀.host r).bus.w.ns := fun r => by
    have := List.all_eq_true.1 b3 r (by cases r <;> simp)
    simpa [Bool.and_eq_true, and_assoc] using this
  obtain ⟨x, hx, x1⟩ := List.map_eq_singleton_iff.1 b1
  obtain ⟨y, hy, y1⟩ := List.map_eq_singleton_iff.1 b2
  simp only [Prod.mk.injEq] at x1 y1
  obtain ⟨x1, x2, x3⟩ := x1
  obtain ⟨y1, y2, y3, y4⟩ := y1
  simp only [after, Bool.and_eq_true, beq_iff_eq] at e3
  obtain ⟨⟨⟨a1, a5⟩, a6⟩, a7⟩ := e3
  refine ⟨σ₀, σ₁, σ, x, y, hσ₀, by rw [hx]; rfl, by rw [hy]; rfl, x1.trans y1.symm, by rw [y4]; simp, ?_, fun r => (b3 r).2.2.2.2, h3', h5,
    ?_, ?_, ?_, ?_, ?_⟩
  · intro r
    obtain ⟨c1, c2, c3, c4, -⟩ := b3 r
    refine ⟨⟨?_, ?_, ?_⟩, ?_⟩
    · rw [c1]; simp
    · rw [c2]; simp
    · rw [c3]; simp
    · rw [c4]; simp
  · rw [x2, x3, y2, y3]
    exact throughout_imp (fun _ h => ⟨fun r => (h r).1, (h false).2.1, (h true).2.1, (h false).2.2, (h true).2.2⟩) w1
  · rw [y1]; exact w2
  · unfold Action.Distinct; rw [a5]; decide
  · intro r
    have := List.all_eq_true.1 a1 r (by cases r <;> simp)
    simp only [Bool.and_eq_true, List.isEmpty_iff] at this
    obtain ⟨⟨⟨⟨c1, c2⟩, c3⟩, c4⟩, c5⟩ := this
    have hp : (σ.host r).bus.phase = .asleep := by cases hp : (σ.host r).bus.phase <;> simp [hp] at c4 ⊢
    exact ⟨⟨c3, by rw [hp]; rfl, by rw [hp]; simp⟩, c1, c2, c5⟩
  · intro k' t' hev
    have h7 := List.all_eq_true.1 a7 _ hev
    simp only [bne_self_eq_false, Bool.false_or, beq_iff_eq] at h7
    rw [Action.asInt_some h7]
    obtain ⟨r, hr, h6⟩ := List.any_eq_true.1 a6
    split at h6
    · simp only [beq_iff_eq] at h6; subst h6; exact hr
    · cases h6

/-- The whole run. -/
def wholeRun : List Act := prepare ++ .act false (.request 0 (bs "1") 5 (.value (.int 7))) :: course

/-- What the example checks at its end. -/
def answered (σ : St) : Bool :=
  ((σ.host false).cons.map (fun x => x.topic) == [bs "a"]) &&
    (σ.host false).evs.any (fun e => match e with
      | .answered 0 id (.user 5) (.value (.int 7)) => id == bs "1"
      | _ => false)

/-- In the same run nobody publishes on the response topic, and the callback is called with what came across. -/
example : ∃ σ₀ σ x, Initial σ₀ ∧ exec eastWest σ₀ wholeRun = .to σ ∧ (σ.host false).cons[0]? = some x ∧
    Along eastWest (Proper x.topic) σ₀ wholeRun ∧
    Ev.answered 0 (bs "1") (.user 5) (.value (.int 7)) ∈ (σ.host false).evs := by
  have key : ∃ s, start = some s ∧ watch (fun _ => true) keepsOff answered s wholeRun = true := by
    have h : (match start with
      | none => false
      | some s => watch (fun _ => true) keepsOff answered s wholeRun) = true := by decide +kernel
    cases hs : start with
    | none => rw [hs] at h; cases h
    | some s => rw [hs] at h; exact ⟨s, rfl, h⟩
  obtain ⟨s, hs, hw⟩ := key
  obtain ⟨-, w2, σ, h1, h2⟩ := watch_sound (P' := fun _ => True) (Q' := Proper (bs "a")) (fun _ _ => trivial) (fun _ _ h => keepsOff_sound h) hw
  simp only [answered, Bool.and_eq_true, beq_iff_eq] at h2
  obtain ⟨x, hx, x1⟩ := List.map_eq_singleton_iff.1 h2.1
  refine ⟨s, σ, x, ?_, h1, by rw [hx]; rfl, by rw [x1]; exact w2, ?_⟩
  · simp only [start, Option.map_eq_some_iff] at hs
    obtain ⟨a, ha, rfl⟩ := hs
    exact fun r => ⟨⟨_, ha⟩, rfl⟩
  · obtain ⟨e, he, h⟩ := List.any_eq_true.1 h2.2
    split at h
    · simp only [beq_iff_eq] at h; subst h; exact he
    · cases h

end LP.Remote
