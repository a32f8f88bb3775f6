import Mathlib.Tactic.Tauto
import Verif.Lemma.ActionMore
import Verif.Prop.BusQueue
/-!
# What is said on an action's topics
-/
namespace LP.Action
open LP.Bus (Delivery BMsg)

/-- Everything published or about to be. -/
def talk (b : Bus.St) : List BMsg := b.inflight ++ b.published

theorem talk_bus {b b' : Bus.St} {a : Bus.Act} (h : Bus.step b a = some b') :
    b.published <+: b'.published ∧ (∀ m ∈ talk b, m ∈ talk b') ∧
    (∀ m ∈ talk b', m ∈ talk b ∨ (∃ i, a = .publish i m) ∨ ∃ q d, a = .pubPublish q d ∧ m.topic = (b.w.pub q).topic ∧ m.dg = d) ∧
    (∀ q d, a = .pubPublish q d → (b.w.pub q).active = true → Attached q b → ∃ m ∈ talk b', m.topic = (b.w.pub q).topic ∧ m.dg = d) := by
  have same : b'.inflight = b.inflight → b'.published = b.published → (∀ q d, a ≠ .pubPublish q d) →
      b.published <+: b'.published ∧ (∀ m ∈ talk b, m ∈ talk b') ∧
      (∀ m ∈ talk b', m ∈ talk b ∨ (∃ i, a = .publish i m) ∨ ∃ q d, a = .pubPublish q d ∧ m.topic = (b.w.pub q).topic ∧ m.dg = d) ∧
      (∀ q d, a = .pubPublish q d → (b.w.pub q).active = true → Attached q b → ∃ m ∈ talk b', m.topic = (b.w.pub q).topic ∧ m.dg = d) := by
    intro h1 h2 h3
    have e : talk b' = talk b := by simp [talk, h1, h2]
    exact ⟨h2 ▸ List.prefix_refl _, fun m hm => e ▸ hm, fun m hm => .inl (e ▸ hm), fun q d e => absurd e (h3 q d)⟩
  cases a with
  | run c =>
    obtain ⟨h1, h2⟩ : b'.inflight = b.inflight ∧ b'.published = b.published := by
      simp only [Bus.step, Bus.rstep] at h
      split at h <;> (try cases h) <;> (try exact ⟨rfl, rfl⟩)
      · split at h <;> cases h <;> exact ⟨rfl, rfl⟩
      · split at h <;> cases h <;> exact ⟨rfl, rfl⟩
    exact same h1 h2 (by simp)
  | publish i m =>
    simp only [Bus.step] at h
    split at h <;> cases h
    refine ⟨List.prefix_refl _, ?_, ?_, by simp⟩
    · intro m hm; simp only [talk, List.mem_append] at hm ⊢; tauto
    · intro m' hm
      simp only [talk, List.mem_append, Bus.publishMsg] at hm ⊢
      rcases hm with (hm | hm) | hm
      · tauto
      · split at hm
        · simp at hm; subst hm; exact .inr (.inl ⟨i, rfl⟩)
        · simp at hm
      · tauto
  | pubPublish q d =>
    simp only [Bus.step] at h
    split at h <;> cases h
    refine ⟨List.prefix_refl _, ?_, ?_, ?_⟩
    · intro m hm; simp only [talk, List.mem_append] at hm ⊢; tauto
    · intro m' hm
      simp only [talk, List.mem_append, Bus.pubPublish, Bus.publishTopic, Bus.publishMsg] at hm ⊢
      rcases hm with (hm | hm) | hm
      · tauto
      · refine .inr (.inr ⟨q, d, rfl, ?_⟩)
        split at hm
        · split at hm
          · simp at hm; subst hm; exact ⟨rfl, rfl⟩
          · simp at hm
        · simp at hm
      · tauto
    · rintro q' d' e h1 h2
      cases e
      unfold Attached at h2
      refine ⟨⟨(b.w.bus (b.w.pub q).bus).name, (b.w.pub q).topic, d⟩, ?_, rfl, rfl⟩
      simp [talk, Bus.pubPublish, Bus.publishTopic, Bus.publishMsg, h1, h2]
  | push i =>
    simp only [Bus.step] at h
    split at h
    · cases h
    · rename_i m hm
      cases h
      obtain ⟨hi, he⟩ := List.getElem?_eq_some_iff.mp hm
      have hmem : ∀ x, x ∈ b.inflight ↔ x = m ∨ x ∈ b.inflight.eraseIdx i := by
        intro x
        constructor
        · intro hx
          obtain ⟨j, hj, rfl⟩ := List.mem_iff_getElem.mp hx
          by_cases hij : j = i
          · subst hij; exact .inl he
          · exact .inr (List.mem_eraseIdx_iff_getElem.mpr ⟨j, hj, hij, rfl⟩)
        · rintro (rfl | hx)
          · exact List.mem_of_getElem? hm
          · exact List.mem_of_mem_eraseIdx hx
      refine ⟨List.prefix_append _ _, ?_, ?_, by simp⟩
      · intro x hx
        simp only [talk, List.mem_append, List.mem_singleton, hmem] at hx ⊢
        tauto
      · intro x hx
        left
        simp only [talk, List.mem_append, List.mem_singleton, hmem] at hx ⊢
        tauto
  | start =>
    simp only [Bus.step] at h
    split at h <;> cases h
    exact same rfl rfl (by simp)
  | _ =>
    simp only [Bus.step] at h
    split at h <;> cases h
    exact same rfl rfl (by simp)

/-- Where a message came from, at the level of actions. -/
inductive Source (σ : St) (m : BMsg) : Act → Prop
  | publish (i : Nat) : Source σ m (.bus (.publish i m))
  | pubPublish (q : Nat) : m.topic = (σ.bus.w.pub q).topic → Source σ m (.bus (.pubPublish q m.dg))
  | send (i : Nat) (p : Pending) (x : Cons) : σ.pending[i]? = some p → σ.cons[p.cons]? = some x → m.topic = (σ.bus.w.pub x.pub).topic →
      m.dg = envelope (bs "request") p.id p.request → Source σ m (.send i)
  | respond (p : Nat) (id : Str) (t : Tree) (y : Prov) : σ.provs[p]? = some y → m.topic = (σ.bus.w.pub y.pub).topic →
      m.dg = envelope (bs "response") id t → Source σ m (.respond p id t)

theorem talk_step {σ σ' : St} {a : Act} (h : step σ a = .to σ') :
    σ.bus.published <+: σ'.bus.published ∧ (∀ m ∈ talk σ.bus, m ∈ talk σ'.bus) ∧ (∀ m ∈ talk σ'.bus, m ∈ talk σ.bus ∨ Source σ m a) := by
  have same : σ'.bus = σ.bus → σ.bus.published <+: σ'.bus.published ∧ (∀ m ∈ talk σ.bus, m ∈ talk σ'.bus) ∧
      (∀ m ∈ talk σ'.bus, m ∈ talk σ.bus ∨ Source σ m a) :=
    fun e => by rw [e]; exact ⟨List.prefix_refl _, fun m h => h, fun m h => .inl h⟩
  have run : ∀ {c : Bus.Choice} {b : Bus.St}, Bus.rstep c σ.bus = some b → σ'.bus = b →
      σ.bus.published <+: σ'.bus.published ∧ (∀ m ∈ talk σ.bus, m ∈ talk σ'.bus) ∧ (∀ m ∈ talk σ'.bus, m ∈ talk σ.bus ∨ Source σ m a) := by
    intro c b hb e
    obtain ⟨h1, h2, h3, _⟩ := talk_bus (a := .run c) (b := σ.bus) (b' := b) hb
    rw [e]
    refine ⟨h1, h2, fun m hm => ?_⟩
    rcases h3 m hm with h | ⟨_, h⟩ | ⟨_, _, h, _⟩
    · exact .inl h
    · cases h
    · cases h
  cases step_eff h with
  | client a b h1 h2 =>
    obtain ⟨e1, e2, e3, _⟩ := talk_bus h2
    refine ⟨e1, e2, fun m hm => ?_⟩
    rcases e3 m hm with h | ⟨i, rfl⟩ | ⟨q, d, rfl, h3, rfl⟩
    · exact .inl h
    · exact .inr (.publish i)
    · exact .inr (.pubPublish q h3)
  | endCb c b h1 h2 => exact run h2 (endCb_same σ b c).1
  | quiet c b h1 h2 => exact run h2 rfl
  | deliver c b d h1 h2 => exact run h2 (dispatch_same _ d).1
  | consumer q s topic b _ _ _ _ _ _ _ _ _ _ hb =>
    obtain ⟨e1, e2, e3, _⟩ := talk_bus hb
    refine ⟨e1, e2, fun m hm => ?_⟩
    rcases e3 m hm with h | ⟨_, h⟩ | ⟨_, _, h, _⟩
    · exact .inl h
    · cases h
    · cases h
  | provider s q topic cb b _ _ _ _ _ _ _ _ _ _ hb =>
    obtain ⟨e1, e2, e3, _⟩ := talk_bus hb
    refine ⟨e1, e2, fun m hm => ?_⟩
    rcases e3 m hm with h | ⟨_, h⟩ | ⟨_, _, h, _⟩
    · exact .inl h
    · cases h
    · cases h
  | send i p x b h1 h2 hb =>
    obtain ⟨e1, e2, e3, _⟩ := talk_bus hb
    refine ⟨e1, e2, fun m hm => ?_⟩
    rcases e3 m hm with h | ⟨_, h⟩ | ⟨q, d, h, h3, h4⟩
    · exact .inl h
    · cases h
    · cases h; exact .inr (.send i p x h1 h2 h3 h4)
  | respond p id t x b h1 hb =>
    obtain ⟨e1, e2, e3, _⟩ := talk_bus hb
    refine ⟨e1, e2, fun m hm => ?_⟩
    rcases e3 m hm with h | ⟨_, h⟩ | ⟨q, d, h, h3, h4⟩
    · exact .inl h
    · cases h
    · cases h; exact .inr (.respond p id t x h1 h3 h4)
  | _ => exact same rfl

theorem requestTopic_ne (a b : Str) : requestTopic a ≠ responseTopic b := by
  intro h
  have := congrArg List.reverse h
  simp [requestTopic, responseTopic, bs] at this

theorem requestTopic_inj {a b : Str} : requestTopic a = requestTopic b ↔ a = b := by
  simp [requestTopic]

theorem responseTopic_inj {a b : Str} : responseTopic a = responseTopic b ↔ a = b := by
  simp [responseTopic]

theorem request_rule {a topic : Str} : Bus.TopicRule (requestTopic a) topic ↔ topic = requestTopic a := by
  constructor
  · rintro (h | h)
    · exact h.symm
    · have := congrArg List.reverse h
      simp [requestTopic, bs] at this
  · rintro rfl; exact .inl rfl

theorem response_rule {a topic : Str} : Bus.TopicRule (responseTopic a) topic ↔ topic = responseTopic a := by
  constructor
  · rintro (h | h)
    · exact h.symm
    · have := congrArg List.reverse h
      simp [responseTopic, bs] at this
  · rintro rfl; exact .inl rfl

/-- The state of request `id` along the way. -/
structure Course (topic id : Str) (c p : Nat) (t : Tree) (f : Tree → Tree) (σ : St) : Prop where
  /-- what bears the id is the request or a response computed from it -/
  said : ∀ m ∈ talk σ.bus, idOf m.dg = some id →
    (m.topic = requestTopic topic → m.dg = envelope (bs "request") id t) ∧
    (m.topic = responseTopic topic → responseOf m.dg = f (envelope (bs "request") id t))
  /-- the only call still to publish under the id is the consumer's -/
  mine : ∀ q ∈ σ.pending, q.id = id → q.cons = c ∧ q.request = t
  /-- the request is about to be published or has been -/
  sent : (∃ q ∈ σ.pending, q.cons = c ∧ q.id = id ∧ q.request = t) ∨ ∃ m ∈ talk σ.bus, m.topic = requestTopic topic ∧ m.dg = envelope (bs "request") id t
  /-- what has reached the provider has been shown to it -/
  shown : ∀ y, σ.provs[p]? = some y → y.cb ≠ none ∧
    ∀ d ∈ σ.bus.log, d.sub = y.sub → idOf d.msg.dg = some id → ∃ k, Ev.requested p k id d.msg.dg ∈ σ.evs
  /-- every answer has been published -/
  told : ∀ u, (p, id, u) ∈ σ.replied → ∃ m ∈ talk σ.bus, m.topic = responseTopic topic ∧ m.dg = envelope (bs "response") id u

theorem course_said {topic id : Str} {c p : Nat} {t : Tree} {f : Tree → Tree} {σ σ' : St} {a : Act} (h : Reachable σ)
    (hc : Course topic id c p t f σ) {y : Prov} (hy : σ.provs[p]? = some y) (ey : y.topic = topic)
    (ho : Honest topic id p σ a) (hb : Obedient p f σ a) (hs : step σ a = .to σ') :
    ∀ m ∈ talk σ'.bus, idOf m.dg = some id →
    (m.topic = requestTopic topic → m.dg = envelope (bs "request") id t) ∧
    (m.topic = responseTopic topic → responseOf m.dg = f (envelope (bs "request") id t)) := by
  intro m hm hid
  rcases (talk_step hs).2.2 m hm with h' | h'
  · exact hc.said m h' hid
  · cases h' with
    | publish i => exact ⟨fun e => (ho ⟨.inl e, hid⟩).elim, fun e => (ho ⟨.inr e, hid⟩).elim⟩
    | pubPublish q e' =>
      exact ⟨fun e => (ho [] ⟨.inl (e'.symm.trans e), hid⟩).elim, fun e => (ho [] ⟨.inr (e'.symm.trans e), hid⟩).elim⟩
    | send i q x h1 h2 h3 h4 =>
      rw [h4, idOf_request, Option.some.injEq] at hid
      have := hc.mine q (List.mem_of_getElem? h1) hid
      refine ⟨fun _ => by rw [h4, hid, this.2], fun e => ?_⟩
      rw [h3, (h.own.cons _ _ h2).pubTopic] at e
      exact (requestTopic_ne _ _ e).elim
    | respond p' id' u y' h1 h2 h3 =>
      rw [h3, idOf_response, Option.some.injEq] at hid
      subst hid
      have hT := (h.own.provs _ _ h1).pubTopic
      rw [hT] at h2
      refine ⟨fun e => (requestTopic_ne _ _ (e.symm.trans h2)).elim, fun e => ?_⟩
      have e1 : y'.topic = topic := responseTopic_inj.1 (h2.symm.trans e)
      have e2 : p' = p := ho rfl ⟨y', h1, e1⟩
      subst e2
      obtain ⟨k, t', hev, rfl⟩ := hb id' u rfl
      obtain ⟨z, hz, d, hd, d1, d2, rfl⟩ := h.hist.reqEv _ _ _ _ hev
      rw [hy] at hz; cases hz
      obtain ⟨-, c1, c2, -⟩ := Bus.C30_no_spurious_delivery σ.bus h.bus d hd
      rw [d1, (h.own.provs _ _ hy).subTopic, request_rule, ey] at c2
      rw [h3, responseOf_response, (hc.said d.msg (List.mem_append_right _ (List.mem_of_getElem? c1)) d2).1 c2]

theorem Course.keep {topic id : Str} {c p : Nat} {t : Tree} {f : Tree → Tree} {σ σ' : St} (hc : Course topic id c p t f σ)
    (hsaid : ∀ m ∈ talk σ'.bus, idOf m.dg = some id →
      (m.topic = requestTopic topic → m.dg = envelope (bs "request") id t) ∧
      (m.topic = responseTopic topic → responseOf m.dg = f (envelope (bs "request") id t)))
    (htalk : ∀ m ∈ talk σ.bus, m ∈ talk σ'.bus) (h1 : ∀ q ∈ σ'.pending, q ∈ σ.pending ∨ q.id ≠ id) (h1' : ∀ q ∈ σ.pending, q ∈ σ'.pending)
    (h2 : ∀ y, σ'.provs[p]? = some y → σ.provs[p]? = some y) (h3 : σ'.bus.log = σ.bus.log) (h4 : ∀ e ∈ σ.evs, e ∈ σ'.evs)
    (h5 : σ'.replied = σ.replied) : Course topic id c p t f σ' := by
  refine ⟨hsaid, ?_, ?_, ?_, ?_⟩
  · intro q hq e
    rcases h1 q hq with h | h
    · exact hc.mine q h e
    · exact absurd e h
  · rcases hc.sent with ⟨q, hq, h⟩ | ⟨m, hm, e⟩
    · exact .inl ⟨q, h1' _ hq, h⟩
    · exact .inr ⟨m, htalk m hm, e⟩
  · intro y hy
    obtain ⟨e1, e2⟩ := hc.shown y (h2 y hy)
    refine ⟨e1, fun d hd d1 d2 => ?_⟩
    rw [h3] at hd
    obtain ⟨k, hk⟩ := e2 d hd d1 d2
    exact ⟨k, h4 _ hk⟩
  · intro u hu
    rw [h5] at hu
    obtain ⟨m, hm, e⟩ := hc.told u hu
    exact ⟨m, htalk m hm, e⟩

theorem endCb_more (σ : St) (b : Bus.St) (c : Bus.Choice) : (endCb σ b c).pending = σ.pending ∧ (endCb σ b c).evs = σ.evs ∧
    (endCb σ b c).replied = σ.replied ∧ (endCb σ b c).provs = σ.provs := by
  unfold endCb
  repeat' split
  all_goals simp [closeRequest]

theorem course_step {topic id : Str} {c p : Nat} {t : Tree} {f : Tree → Tree} {σ σ' : St} {a : Act} (h : Reachable σ)
    (hc : Course topic id c p t f σ) {x : Cons} (hx : σ.cons[c]? = some x) (ex : x.topic = topic) (ax : Attached x.pub σ.bus)
    {y : Prov} (hy : σ.provs[p]? = some y) (ey : y.topic = topic) (ay : Attached y.pub σ.bus)
    (ho : Honest topic id p σ a) (hb : Obedient p f σ a) (hs : step σ a = .to σ') : Course topic id c p t f σ' := by
  have said := course_said h hc hy ey ho hb hs
  obtain ⟨-, htalk, -⟩ := talk_step hs
  cases step_eff hs with
  | client a b h1 h2 =>
    exact hc.keep said htalk (fun q h => .inl h) (fun q h => h) (fun y h => h) (client_cases (client_not_run h1) h2).2.2.1 (fun e h => h) rfl
  | endCb c b h1 h2 h3 h4 h5 h6 =>
    obtain ⟨e1, e2, e3, e4⟩ := endCb_more σ b c
    exact hc.keep said htalk (fun q h => .inl (e1 ▸ h)) (fun q h => e1 ▸ h) (fun y h => e4 ▸ h)
      ((congrArg Bus.St.log (endCb_same σ b c).1).trans h5) (fun e h => e2 ▸ h) e3
  | quiet c b h1 h2 h3 h4 h5 => exact hc.keep said htalk (fun q h => .inl h) (fun q h => h) (fun y h => h) h5 (fun e h => h) rfl
  | deliver ch b d h1 h2 h3 h4 h5 h6 =>
    obtain ⟨d1, -, d3, d4, -, -, -, d8, -⟩ := dispatch_same { σ with bus := b } d
    have m := mono_step hs
    refine ⟨said, fun q hq => hc.mine q (d4 ▸ hq), ?_, ?_, fun u hu => ?_⟩
    · rcases hc.sent with h | ⟨m, hm, e⟩
      · left; rw [d4]; exact h
      · exact .inr ⟨m, htalk m hm, e⟩
    · intro y' hy'
      rw [d3] at hy'
      obtain ⟨e1, e2⟩ := hc.shown y' hy'
      refine ⟨e1, fun e he f1 f2 => ?_⟩
      rw [d1] at he
      simp only [h5] at he
      rcases List.mem_append.1 he with he | he
      · obtain ⟨k, hk⟩ := e2 e he f1 f2
        exact ⟨k, m.evs.subset hk⟩
      · simp only [List.mem_singleton] at he
        subst he
        have hf : fnOf e.cb = .provider p := (h.own.provider h6).2 ⟨y', hy', f1⟩
        obtain ⟨k, hk⟩ := Option.ne_none_iff_exists'.1 e1
        have hy'' : ({ σ with bus := b } : St).provs[p]? = some y' := hy'
        refine ⟨k, ?_⟩
        simp only [dispatch, hf, f2, hy', hk]
        simp
    · obtain ⟨m, hm, e⟩ := hc.told u (d8 ▸ hu)
      exact ⟨m, htalk m hm, e⟩
  | consumer q s tp b _ _ _ _ _ _ _ _ _ _ hcb =>
    exact hc.keep said htalk (fun q h => .inl h) (fun q h => h) (fun y h => h) (setCb_log hcb) (fun e h => h) rfl
  | provider s q tp cb b _ _ _ _ _ _ _ _ _ _ hcb =>
    refine hc.keep said htalk (fun q h => .inl h) (fun q h => h) (fun y' h => ?_) (setCb_log hcb) (fun e h => h) rfl
    have := getElem?_append_old (m := [⟨tp, s, q, cb⟩]) hy
    simp only at h
    rw [this] at h; cases h; exact hy
  | reset p' =>
    refine hc.keep said htalk (fun q h => .inl h) (fun q h => h) (fun y' h => ?_) rfl (fun e h => h) rfl
    simp only [List.getElem?_modify, if_neg (show p' ≠ p from ho)] at h
    simpa using h
  | request c' id' k' t' x' hx' =>
    refine hc.keep said htalk (fun q h => ?_) (fun q h => List.mem_append_left _ h) (fun y h => h) rfl (fun e h => h) rfl
    rcases List.mem_append.1 h with h | h
    · exact .inl h
    · simp only [List.mem_singleton] at h; subst h; exact .inr ho
  | begin c' id' t' onBus x' hx' _ =>
    refine hc.keep said htalk (fun q h => ?_) (fun q h => List.mem_append_left _ h) (fun y h => h) rfl (fun e h => h) rfl
    rcases List.mem_append.1 h with h | h
    · exact .inl h
    · simp only [List.mem_singleton] at h; subst h; exact .inr ho
  | send i q x' b h1 h2 h3 =>
    refine ⟨said, fun q hq => hc.mine q (List.mem_of_mem_eraseIdx hq), ?_, fun y hy => ?_, fun u hu => ?_⟩
    · rcases hc.sent with ⟨q', hq', e1, e2, e3⟩ | ⟨m, hm, e⟩
      · by_cases e : q.cons = c ∧ q.id = id ∧ q.request = t
        · rw [e.1, hx] at h2; cases h2
          have hk := h.own.cons _ _ hx
          obtain ⟨m, hm, e1, e2⟩ := (talk_bus h3).2.2.2 _ _ rfl hk.active ax
          exact .inr ⟨m, hm, by rw [e1, hk.pubTopic, ex], by rw [e2, e.2.1, e.2.2]⟩
        · left
          obtain ⟨j, hj, ej⟩ := List.mem_iff_getElem.1 hq'
          refine ⟨q', List.mem_eraseIdx_iff_getElem.2 ⟨j, hj, ?_, ej⟩, e1, e2, e3⟩
          rintro rfl
          rw [List.getElem?_eq_getElem hj, ej] at h1
          cases h1; exact e ⟨e1, e2, e3⟩
      · exact .inr ⟨m, htalk m hm, e⟩
    · obtain ⟨e1, e2⟩ := hc.shown y hy
      refine ⟨e1, fun d hd => e2 d ?_⟩
      simp only [(pubPublish_log h3).1] at hd
      exact hd
    · obtain ⟨m, hm, e⟩ := hc.told u hu
      exact ⟨m, htalk m hm, e⟩
  | respond p' id' u y' b h1 h2 =>
    refine ⟨said, hc.mine, ?_, fun y hy => ?_, fun u' hu => ?_⟩
    · rcases hc.sent with h | ⟨m, hm, e⟩
      · exact .inl h
      · exact .inr ⟨m, htalk m hm, e⟩
    · obtain ⟨e1, e2⟩ := hc.shown y hy
      refine ⟨e1, fun d hd => e2 d ?_⟩
      simp only [(pubPublish_log h2).1] at hd
      exact hd
    · rcases List.mem_append.1 hu with hu | hu
      · obtain ⟨m, hm, e⟩ := hc.told u' hu
        exact ⟨m, htalk m hm, e⟩
      · simp only [List.mem_singleton, Prod.mk.injEq] at hu
        obtain ⟨rfl, rfl, rfl⟩ := hu
        rw [hy] at h1; cases h1
        have hk := h.own.provs _ _ hy
        obtain ⟨m, hm, e1, e2⟩ := (talk_bus h2).2.2.2 _ _ rfl hk.active ay
        exact ⟨m, hm, by rw [e1, hk.pubTopic, ey], e2⟩
  | _ => exact hc.keep said htalk (fun q h => .inl h) (fun q h => h) (fun y h => h) rfl (fun e h => h) rfl

theorem course_exec {topic id : Str} {c p : Nat} {t : Tree} {f : Tree → Tree} {σ σ' : St} {as : List Act} (h : Reachable σ)
    (hc : Course topic id c p t f σ) {x : Cons} (hx : σ.cons[c]? = some x) (ex : x.topic = topic)
    {y : Prov} (hy : σ.provs[p]? = some y) (ey : y.topic = topic)
    (hat : Throughout (fun τ => Attached x.pub τ.bus ∧ Attached y.pub τ.bus) σ as)
    (ho : Along (Honest topic id p) σ as) (hb : Along (Obedient p f) σ as) (he : exec σ as = .to σ') : Course topic id c p t f σ' := by
  induction as generalizing σ x y with
  | nil => cases he; exact hc
  | cons a as ih =>
    obtain ⟨τ, h1, h2⟩ := exec_cons he
    obtain ⟨⟨a1, a2⟩, a3⟩ := hat
    have m := mono_step h1
    obtain ⟨x', hx', e1, e2, e3⟩ := m.cons c x hx
    obtain ⟨y', hy', f1, f2, f3⟩ := m.provs p y hy
    refine ih (h.step h1) (course_step h hc hx ex a1 hy ey a2 ho.1 hb.1 h1) hx' (e1.trans ex) hy' (f1.trans ey) ?_ (ho.2 _ h1) (hb.2 _ h1) h2
    rw [e3, f3]; exact a3 _ h1

theorem talk_exec {σ σ' : St} {as : List Act} (he : exec σ as = .to σ') : σ.bus.published <+: σ'.bus.published := by
  induction as generalizing σ with
  | nil => cases he; exact List.prefix_refl _
  | cons a as ih =>
    obtain ⟨τ, h1, h2⟩ := exec_cons he
    exact (talk_step h1).1.trans (ih h2)

/-- A message a live subscriber is due has been delivered to it once the bus is idle. -/
theorem delivered {σ σ' : St} {as : List Act} (h : Reachable σ) (he : exec σ as = .to σ') {s : Nat} (hs : s < σ.bus.w.ns)
    (hl : Throughout (fun τ => Bus.Live τ.bus.w s) σ as) (hc : .run .throwing ∉ as) (hi : Bus.Idle σ'.bus) {m : BMsg}
    (hm : m ∈ σ'.bus.published) (hn : m ∉ σ.bus.published) (ht : Bus.TopicRule (σ'.bus.w.sub s).topic m.topic) :
    ∃ d ∈ σ'.bus.log, d.sub = s ∧ d.msg = m ∧ d ∉ σ.bus.log := by
  obtain ⟨l, e1, e2, e3⟩ := exec_bus he
  have hr := Bus.C29_stable_subscriber_receives_all σ.bus σ'.bus l s h.bus hs (e3 _ hl) (fun h => hc (e2 h)) e1 hi
  obtain ⟨i, hi', rfl⟩ := List.mem_iff_getElem.1 hm
  have hlen : σ.bus.published.length ≤ i := by
    refine Nat.le_of_not_lt fun hlt => hn ?_
    have := (talk_exec he).getElem hlt
    rw [← this]; exact List.getElem_mem hlt
  have hf : σ.bus.fates.length ≤ i := Nat.le_trans h.bus.inv.len hlen
  have hmem : i ∈ Bus.due (σ'.bus.w.sub s).topic σ'.bus.published σ.bus.fates.length σ'.bus.published.length := by
    simp only [Bus.due, List.mem_filter, List.mem_range'_1]
    refine ⟨⟨hf, by omega⟩, ?_⟩
    rw [List.getElem?_eq_getElem hi']
    simpa using ht
  rw [← hr] at hmem
  obtain ⟨d, hd, e⟩ := List.mem_map.1 (List.mem_filter.1 hmem).1
  obtain ⟨hd, e'⟩ := List.mem_filter.1 hd
  have c1 := (Bus.C30_no_spurious_delivery σ'.bus (h.exec he).bus d hd).2.1
  rw [e, List.getElem?_eq_getElem hi'] at c1
  refine ⟨d, hd, by simpa using e', by simpa using c1.symm, fun hd' => ?_⟩
  have c2 := (Bus.C30_no_spurious_delivery σ.bus h.bus d hd').2.1
  rw [e, List.getElem?_eq_none hlen] at c2; cases c2

theorem honest_calm {topic id : Str} {p : Nat} {σ σ' : St} {as : List Act} (ho : Along (Honest topic id p) σ as)
    (he : exec σ as = .to σ') : .run .throwing ∉ as := by
  induction as generalizing σ with
  | nil => simp
  | cons a as ih =>
    obtain ⟨τ, h1, h2⟩ := exec_cons he
    intro hm
    rcases List.mem_cons.1 hm with e | hm
    · exact (e ▸ ho.1 : Honest topic id p σ (.run .throwing))
    · exact ih (ho.2 _ h1) h2 hm

theorem throughout_imp {P Q : St → Prop} (hPQ : ∀ τ, P τ → Q τ) {σ : St} {as : List Act} (h : Throughout P σ as) : Throughout Q σ as := by
  induction as generalizing σ with
  | nil => exact hPQ _ h
  | cons a as ih => exact ⟨hPQ _ h.1, fun τ hτ => ih (h.2 τ hτ)⟩

/-- Without throwing callbacks no request is recorded as thrown. -/
theorem threw_same {σ σ' : St} {as : List Act} (hc : .run .throwing ∉ as) (he : exec σ as = .to σ') : σ'.threw = σ.threw := by
  induction as generalizing σ with
  | nil => cases he; rfl
  | cons a as ih =>
    obtain ⟨τ, h1, h2⟩ := exec_cons he
    rw [ih (fun h => hc (List.mem_cons_of_mem _ h)) h2]
    have hne : a ≠ .run .throwing := fun e => hc (e ▸ List.mem_cons_self)
    cases step_eff h1 with
    | endCb c b _ _ _ _ _ _ =>
      cases c with
      | throwing => exact absurd rfl hne
      | _ => unfold endCb; split <;> first | rfl | simp_all
    | deliver c b d _ _ _ _ _ _ => exact (dispatch_same { σ with bus := b } d).2.2.2.2.2.2.2.2
    | _ => rfl

/-- Check a state condition and an event condition along an execution. -/
def watch (P : St → Bool) (Q : St → Act → Bool) : St → List Act → Bool
  | σ, [] => P σ
  | σ, a :: as => P σ && Q σ a && match step σ a with
    | .to σ' => watch P Q σ' as
    | _ => true

theorem watch_sound {P : St → Bool} {Q : St → Act → Bool} {P' : St → Prop} {Q' : St → Act → Prop} (hP : ∀ τ, P τ = true → P' τ)
    (hQ : ∀ τ a, Q τ a = true → Q' τ a) {σ : St} {as : List Act} (h : watch P Q σ as = true) : Throughout P' σ as ∧ Along Q' σ as := by
  induction as generalizing σ with
  | nil => exact ⟨hP _ h, trivial⟩
  | cons a as ih =>
    simp only [watch, Bool.and_eq_true] at h
    obtain ⟨⟨h1, h2⟩, h3⟩ := h
    refine ⟨⟨hP _ h1, fun τ e => ?_⟩, ⟨hQ _ _ h2, fun τ e => ?_⟩⟩
    · rw [e] at h3; exact (ih h3).1
    · rw [e] at h3; exact (ih h3).2

theorem along_imp {P R : St → Act → Prop} (hP : ∀ τ a, R τ a → P τ a) {σ : St} {as : List Act} (h : Along R σ as) : Along P σ as := by
  induction as generalizing σ with
  | nil => trivial
  | cons a as ih => exact ⟨hP _ _ h.1, fun τ e => ih (h.2 τ e)⟩

/-- Subscriber `s` and publisher `q` belong to the running root. -/
def atRoot (s q : Nat) (b : Bus.St) : Bool :=
  decide (s ∈ (b.w.bus 0).subs) && decide ((b.w.sub s).home = 0) && (b.w.sub s).cb.isSome && (b.w.bus 0).running &&
    decide ((b.w.pub q).bus = 0) && (b.w.bus 0).attached

theorem atRoot_sound {s q : Nat} {b : Bus.St} (h : atRoot s q b = true) : Bus.Live b.w s ∧ Attached q b := by
  simp only [atRoot, Bool.and_eq_true, decide_eq_true_eq] at h
  obtain ⟨⟨⟨⟨⟨h1, h2⟩, h3⟩, h4⟩, h5⟩, h6⟩ := h
  refine ⟨⟨by rw [h2]; exact h1, ?_, by rw [h2]; exact .refl h4⟩, ?_⟩
  · intro e; rw [e] at h3; cases h3
  · unfold Attached; rw [h5]; exact h6

end LP.Action
