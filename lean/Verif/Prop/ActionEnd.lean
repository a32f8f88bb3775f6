import Verif.Lemma.ActionTalk
import Verif.Prop.Action
/-!
# C48: from request to response
-/
namespace LP.Action
open LP.Bus (Delivery BMsg)

/-! ## C48 -/

/-- A consumer and a provider of one topic. The consumer requests with a new id; the provider, whenever it is shown a
request, answers it with `f` of what it was shown (the whole envelope). Both stay registered and their buses running,
nobody interferes. Then, in every schedule and however much other traffic there is, once everything sent has been
distributed the consumer's callback has been called exactly once for this request, with `f` of its envelope. -/
theorem C48_request_response (σ₀ σ₁ σ : St) (as : List Act) (c p : Nat) (id : Str) (k : Nat) (t : Tree) (f : Tree → Tree)
    (x : Cons) (y : Prov) (h : Reachable σ₀) (hx : σ₀.cons[c]? = some x) (hy : σ₀.provs[p]? = some y) (hT : x.topic = y.topic)
    (hcb : y.cb ≠ none) (hfresh : Fresh σ₀ id) (hreq : step σ₀ (.request c id k t) = .to σ₁) (he : exec σ₁ as = .to σ)
    (hlive : Throughout (fun τ => Bus.Live τ.bus.w x.sub ∧ Bus.Live τ.bus.w y.sub ∧ Attached x.pub τ.bus ∧ Attached y.pub τ.bus) σ₁ as)
    (honest : Along (Honest y.topic id p) σ₁ as) (obey : Along (Obedient p f) σ₁ as) (hdist : Distinct σ)
    (hidle : Bus.Idle σ.bus) (hin : σ.bus.inflight = []) (hpend : σ.pending = [])
    (hans : ∀ k' t', Ev.requested p k' id t' ∈ σ.evs → (p, id, f t') ∈ σ.replied) :
    answers c id σ.evs = [.answered c id (.user k) (f (envelope (bs "request") id t))] := by
  have h₁ := h.step hreq
  have hσ := h₁.exec he
  have hm := mono_exec he
  have hcalm := honest_calm honest he
  have e₁ : σ₁ = register σ₀ c x id (.user k) t none := by
    simp only [step, hx, Next.to.injEq] at hreq; exact hreq.symm
  have hb₁ : σ₁.bus = σ₀.bus := by rw [e₁]; rfl
  have ha₁ : (⟨c, id, .user k, t, σ₀.bus.log.length⟩ : Asked) ∈ σ₁.asked := by rw [e₁]; simp [register]
  have hy₁ : σ₁.provs[p]? = some y := by rw [e₁]; exact hy
  obtain ⟨x₁, hx₁, x1, x2, x3⟩ := (mono_step hreq).cons c x hx
  -- the invariant
  have hstart : Course y.topic id c p t f σ₁ := by
    refine ⟨?_, ?_, ?_, ?_, ?_⟩
    · intro m hm' hid
      rw [hb₁] at hm'
      exact absurd hid (hfresh.1 m hm')
    · intro q hq hid
      rw [e₁] at hq
      rcases List.mem_append.1 hq with hq | hq
      · obtain ⟨a, ha, -, a2, -⟩ := h.pendAsked q hq
        exact absurd (a2.trans hid) (hfresh.2.1 a ha)
      · simp only [List.mem_singleton] at hq; subst hq; exact ⟨rfl, rfl⟩
    · left; rw [e₁]; exact ⟨⟨c, id, t, none⟩, by simp [register], rfl, rfl, rfl⟩
    · intro y' hy'
      rw [hy₁] at hy'; cases hy'
      refine ⟨hcb, fun d hd _ hid => ?_⟩
      rw [hb₁] at hd
      exact absurd hid (hfresh.1 _ (List.mem_append_right _ (List.mem_of_getElem? (Bus.C30_no_spurious_delivery _ h.bus d hd).2.1)))
    · intro u hu
      rw [e₁] at hu
      exact absurd rfl (hfresh.2.2 _ hu)
  have hc : Course y.topic id c p t f σ :=
    course_exec h₁ hstart hx₁ (x1.trans hT) hy₁ rfl (by rw [x3]; exact throughout_imp (fun _ h => h.2.2) hlive) honest obey he
  obtain ⟨x', hx', f1, f2, f3⟩ := hm.cons c x₁ hx₁
  obtain ⟨y', hy', g1, g2, g3⟩ := hm.provs p y hy₁
  have old : ∀ m : BMsg, idOf m.dg = some id → m ∉ σ₁.bus.published := fun m hid hm' => by
    rw [hb₁] at hm'; exact hfresh.1 m (List.mem_append_right _ hm') hid
  have talked : talk σ.bus = σ.bus.published := by simp [talk, hin]
  -- the request reaches the provider
  obtain ⟨m, hm', m1, m2⟩ : ∃ m ∈ talk σ.bus, m.topic = requestTopic y.topic ∧ m.dg = envelope (bs "request") id t := by
    rcases hc.sent with h' | h'
    · rw [hpend] at h'; obtain ⟨q, hq, _⟩ := h'; cases hq
    · exact h'
  rw [talked] at hm'
  have s1 : y.sub < σ₁.bus.w.ns := (h₁.own.provs _ _ hy₁).sub
  obtain ⟨d, hd, d1, rfl, -⟩ := delivered h₁ he s1 (throughout_imp (fun _ h => h.2.1) hlive) hcalm hidle hm' (old m (by rw [m2]; rfl))
    (by rw [← g2, (hσ.own.provs _ _ hy').subTopic, g1, m1]; exact .inl rfl)
  -- and is answered
  obtain ⟨k', hk'⟩ := (hc.shown y' hy').2 d hd (d1.trans g2.symm) (by rw [m2]; rfl)
  obtain ⟨r, hr, r1, r2⟩ := hc.told _ (hans k' _ hk')
  rw [talked] at hr
  -- the answer reaches the consumer
  have s2 : x.sub < σ₁.bus.w.ns := x2 ▸ (h₁.own.cons _ _ hx₁).sub
  obtain ⟨e, he', e1, rfl, e3⟩ := delivered h₁ he s2 (throughout_imp (fun _ h => h.1) hlive) hcalm hidle hr (old r (by rw [r2]; rfl))
    (by rw [← x2, ← f2, (hσ.own.cons _ _ hx').subTopic, f1, x1, hT, r1]; exact .inl rfl)
  -- exactly the first response counts
  have hthrew : (c, id) ∉ σ.threw := by
    rw [threw_same hcalm he]
    intro hmem
    have : (c, id) ∈ σ₀.threw := by rw [e₁] at hmem; exact hmem
    obtain ⟨_, a, ha, -, a2, -⟩ := h.hist.threw c id this
    exact hfresh.2.1 a ha a2
  obtain ⟨z, hz, hz'⟩ := C45_first_response_once σ hσ hdist _ (hm.asked.subset ha₁) hthrew
  simp only at hz hz'
  rw [hx'] at hz; cases hz
  rw [hz']
  have hsplit : e ∈ σ.bus.log.drop σ₀.bus.log.length := by
    obtain ⟨l, hl⟩ := hm.log
    rw [hb₁] at hl e3
    rw [← hl] at he' ⊢
    rw [List.drop_left]
    rcases List.mem_append.1 he' with h' | h'
    · exact absurd h' e3
    · exact h'
  have hmem : e ∈ responses x'.sub id (σ.bus.log.drop σ₀.bus.log.length) := by
    simp only [responses, List.mem_filter, Bool.and_eq_true, beq_iff_eq]
    exact ⟨hsplit, by rw [e1, f2, x2], by rw [r2]; rfl⟩
  obtain ⟨d₀, rest, hrs⟩ := List.exists_cons_of_ne_nil (List.ne_nil_of_mem hmem)
  rw [hrs]
  have h0 : d₀ ∈ responses x'.sub id (σ.bus.log.drop σ₀.bus.log.length) := by rw [hrs]; exact List.mem_cons_self
  simp only [responses, List.mem_filter, Bool.and_eq_true, beq_iff_eq] at h0
  obtain ⟨h01, h02, h03⟩ := h0
  obtain ⟨-, q1, q2, -⟩ := Bus.C30_no_spurious_delivery σ.bus hσ.bus d₀ (List.mem_of_mem_drop h01)
  rw [h02, (hσ.own.cons _ _ hx').subTopic, response_rule, f1, x1, hT] at q2
  have := (hc.said d₀.msg (List.mem_append_right _ (List.mem_of_getElem? q1)) h03).2 q2
  simp [this]

/-- The course of the example: the request goes out, some other message passes, the provider answers with what it was
asked, and everything is distributed. -/
def course : List Act :=
  [.send 0, .bus (.publish 0 ⟨bs "r", bs "chat", .value (.int 3)⟩), .bus (.push 1), .bus (.push 0)] ++ thread 16 ++
    [.respond 0 (bs "1") (.value (.int 7)), .bus (.push 0)] ++ thread 23

/-- What the provider of the example answers: the content of the request. -/
def echoed (t : Tree) : Tree := Tree.subAt [.key (bs "request")] t

/-- The provider of the example has been shown request "1" with content 7. -/
def wasAsked (σ : St) : Bool := σ.evs.any (fun e => match e with
  | .requested 0 _ id t => id == bs "1" && asInt (echoed t) == some 7
  | _ => false)

theorem asInt_some {t : Tree} {n : Int32} (h : asInt t = some n) : t = .value (.int n) := by
  unfold asInt at h
  split at h
  · simpa using h
  · cases h

/-- The events of the example. -/
def expected (σ : St) : Act → Bool
  | .send _ => true
  | .bus (.publish _ m) => m.topic == bs "chat"
  | .bus (.push _) => true
  | .run .go => true
  | .respond 0 id (.value (.int 7)) => id == bs "1" && wasAsked σ
  | _ => false

theorem expected_sound {σ : St} {a : Act} (h : expected σ a = true) : Honest (bs "a") (bs "1") 0 σ a ∧ Obedient 0 echoed σ a := by
  unfold expected at h
  split at h
  · exact ⟨trivial, by intro _ _ e; cases e⟩
  · rename_i i m
    refine ⟨?_, by intro _ _ e; cases e⟩
    simp only [beq_iff_eq] at h
    rintro ⟨h' | h', -⟩
    · rw [h] at h'; exact absurd h' (by decide)
    · rw [h] at h'; exact absurd h' (by decide)
  · exact ⟨trivial, by intro _ _ e; cases e⟩
  · exact ⟨trivial, by intro _ _ e; cases e⟩
  · rename_i id
    simp only [Bool.and_eq_true, beq_iff_eq] at h
    obtain ⟨rfl, h⟩ := h
    refine ⟨fun _ _ => rfl, ?_⟩
    intro id u e
    cases e
    obtain ⟨e, he, h'⟩ := List.any_eq_true.1 h
    split at h'
    · rename_i k id t
      simp only [Bool.and_eq_true, beq_iff_eq] at h'
      obtain ⟨rfl, h'⟩ := h'
      exact ⟨k, t, he, (asInt_some h').symm⟩
    · cases h'
  · cases h

/-- What the example checks about the state before the request. -/
def before (σ : St) : Bool :=
  (σ.cons.map (fun x => (x.topic, x.sub, x.pub)) == [(bs "a", 0, 0)]) &&
    (σ.provs.map (fun x => (x.topic, x.sub, x.pub, x.cb)) == [(bs "a", 1, 1, some 9)]) &&
    (σ.bus.inflight ++ σ.bus.published).isEmpty && σ.asked.isEmpty && σ.replied.isEmpty

/-- What the example checks about the final state. -/
def after (σ : St) : Bool :=
  σ.bus.inflight.isEmpty && σ.pending.isEmpty && σ.bus.w.queue.isEmpty &&
    (match σ.bus.phase with | .asleep => true | _ => false) && (σ.asked.map (fun a => (a.cons, a.id)) == [(0, bs "1")]) &&
    σ.replied.any (fun r => match r with
      | (0, id, .value (.int 7)) => id == bs "1"
      | _ => false) &&
    σ.evs.all (fun e => match e with
      | .requested 0 _ id t => id != bs "1" || asInt (echoed t) == some 7
      | _ => true)

/-- All the hypotheses hold of a consumer and a provider on a root bus with one exchange; the callback got the content
of the request. -/
example : ∃ σ₀ σ₁ σ x y, Reachable σ₀ ∧ σ₀.cons[0]? = some x ∧ σ₀.provs[0]? = some y ∧ x.topic = y.topic ∧ y.cb ≠ none ∧
    Fresh σ₀ (bs "1") ∧ step σ₀ (.request 0 (bs "1") 5 (.value (.int 7))) = .to σ₁ ∧ exec σ₁ course = .to σ ∧
    Throughout (fun τ => Bus.Live τ.bus.w x.sub ∧ Bus.Live τ.bus.w y.sub ∧ Attached x.pub τ.bus ∧ Attached y.pub τ.bus) σ₁ course ∧
    Along (Honest y.topic (bs "1") 0) σ₁ course ∧ Along (Obedient 0 echoed) σ₁ course ∧ Distinct σ ∧ Bus.Idle σ.bus ∧
    σ.bus.inflight = [] ∧ σ.pending = [] ∧
    (∀ k' t', Ev.requested 0 k' (bs "1") t' ∈ σ.evs → (0, bs "1", echoed t') ∈ σ.replied) ∧
    plainAnswers σ.evs = [⟨0, bs "1", .user 5, some 7⟩] := by
  obtain ⟨σ₀, σ, h, he, e⟩ := play_obs2 (bs "r") setup (.request 0 (bs "1") 5 (.value (.int 7)) :: course)
    (fun σ₀ σ => (before σ₀, (match step σ₀ (.request 0 (bs "1") 5 (.value (.int 7))) with
        | .to σ₁ => watch (fun τ => atRoot 0 0 τ.bus && atRoot 1 1 τ.bus) expected σ₁ course
        | _ => false), after σ, plainAnswers σ.evs))
    (true, true, true, [⟨0, bs "1", .user 5, some 7⟩]) (by decide +kernel)
  simp only [Prod.mk.injEq] at e
  obtain ⟨e1, e2, e3, e4⟩ := e
  obtain ⟨σ₁, h1, h2⟩ := exec_cons he
  rw [h1] at e2
  simp only at e2
  simp only [before, Bool.and_eq_true, beq_iff_eq, List.isEmpty_iff] at e1
  obtain ⟨⟨⟨⟨b1, b2⟩, b3⟩, b4⟩, b5⟩ := e1
  obtain ⟨x, hx, x1⟩ := List.map_eq_singleton_iff.1 b1
  obtain ⟨y, hy, y1⟩ := List.map_eq_singleton_iff.1 b2
  simp only [Prod.mk.injEq] at x1 y1
  obtain ⟨x1, x2, x3⟩ := x1
  obtain ⟨y1, y2, y3, y4⟩ := y1
  simp only [after, Bool.and_eq_true, beq_iff_eq, List.isEmpty_iff] at e3
  obtain ⟨⟨⟨⟨⟨⟨a1, a2⟩, a3⟩, a4⟩, a5⟩, a6⟩, a7⟩ := e3
  have hp : σ.bus.phase = .asleep := by cases hp : σ.bus.phase <;> simp [hp] at a4 ⊢
  obtain ⟨w1, w2⟩ := watch_sound (P' := fun τ => (Bus.Live τ.bus.w 0 ∧ Attached 0 τ.bus) ∧ Bus.Live τ.bus.w 1 ∧ Attached 1 τ.bus)
    (Q' := fun τ a => Honest (bs "a") (bs "1") 0 τ a ∧ Obedient 0 echoed τ a)
    (fun τ h => by
      simp only [Bool.and_eq_true] at h
      exact ⟨atRoot_sound h.1, atRoot_sound h.2⟩)
    (fun τ a h => expected_sound h) e2
  refine ⟨σ₀, σ₁, σ, x, y, h, by rw [hx]; rfl, by rw [hy]; rfl, x1.trans y1.symm, by rw [y4]; simp, ?_, h1, h2, ?_, ?_, ?_, ?_, ?_, a1, a2, ?_, e4⟩
  · refine ⟨?_, ?_, ?_⟩
    · rw [b3]; simp
    · rw [b4]; simp
    · rw [b5]; simp
  · rw [x2, x3, y2, y3]
    exact throughout_imp (fun _ h => ⟨h.1.1, h.2.1, h.1.2, h.2.2⟩) w1
  · rw [y1]; exact along_imp (fun _ _ h => h.1) w2
  · exact along_imp (fun _ _ h => h.2) w2
  · unfold Distinct; rw [a5]; decide
  · exact ⟨a3, by rw [hp]; rfl, by rw [hp]; simp⟩
  · intro k' t' hev
    have h7 := List.all_eq_true.1 a7 _ hev
    simp only [bne_self_eq_false, Bool.false_or, beq_iff_eq] at h7
    rw [asInt_some h7]
    obtain ⟨r, hr, h6⟩ := List.any_eq_true.1 a6
    split at h6
    · simp only [beq_iff_eq] at h6; subst h6; exact hr
    · cases h6

end LP.Action
