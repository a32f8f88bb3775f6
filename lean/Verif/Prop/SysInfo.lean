import Verif.Lemma.SysInfoFree
import Verif.Lemma.SysInfoPlay
import Verif.Lemma.SysInfoPub
import Verif.Prop.ActionEnd
import Verif.Prop.Link
/-!
# The SysInfo plugin (C84, C85, C86, C87)
-/
namespace LP.Action

/-- One event adds at most one delivery to the log. -/
theorem log_step {w w' : St} {a : Act} (h : step w a = .to w') : w'.bus.log = w.bus.log ∨ ∃ d, w'.bus.log = w.bus.log ++ [d] := by
  cases step_eff h with
  | client a b g1 g2 => exact .inl (client_cases (client_not_run g1) g2).2.2.1
  | endCb c b g1 g2 g3 g4 g5 => rw [(endCb_same w b c).1]; exact .inl g5
  | quiet c b g1 g2 g3 g4 g5 => exact .inl g5
  | deliver c b d' g1 g2 g3 g4 g5 g6 => rw [(dispatch_same { w with bus := b } d').1]; exact .inr ⟨d', g5⟩
  | consumer q s topic b h1 h2 h3 h4 h5 h6 h7 h8 h9 h10 h11 => exact .inl (setCb_log h11)
  | provider s q topic cb b h1 h2 h3 h4 h5 h6 h7 h8 h9 h10 h11 => exact .inl (setCb_log h11)
  | send i p x b h1 h2 h3 => exact .inl (pubPublish_log h3).1
  | respond p id t x b h1 h2 => exact .inl (pubPublish_log h2).1
  | _ => exact .inl rfl

end LP.Action

namespace LP.SysInfo
open LP.Action (Ev Cons Prov Delivers idOf envelope answers)
open LP.Bus (Delivery)

/-! ## C84 -/

/-- The provider answers the requests it is shown in order, each exactly once and always with the same response; a request is
unanswered only while the bus thread is still in the callback for it. -/
theorem C84_each_request_answered_once (σ : St) (h : Reachable σ) (p : Nat) (hp : σ.prov = some p) :
    (responded p σ.world.replied).map Prod.fst <+: requested p σ.world.evs ∧
    (requested p σ.world.evs).length ≤ (responded p σ.world.replied).length + 1 ∧
    (∀ r ∈ responded p σ.world.replied, r.2 = .value (.str (bs "This is the response message."))) ∧
    ((∀ id, σ.world.cur ≠ .providing p id) → requested p σ.world.evs = (responded p σ.world.replied).map Prod.fst) := by
  obtain ⟨_, hb⟩ := h.inv
  have hbook := hb.book p hp
  refine ⟨⟨_, hbook.symm⟩, ?_, hb.same p hp, ?_⟩
  · rw [hbook, List.length_append, List.length_map]
    split
    · simp
    · cases Action.showing p σ.world.cur <;> simp
  · intro hc
    rw [hbook]
    have : Action.showing p σ.world.cur = none := by
      unfold Action.showing
      split
      · rename_i p' id hc'
        split
        · subst_vars; exact absurd hc' (hc id)
        · rfl
      · rfl
    rw [this]
    split <;> simp

/-- What ending a callback does to the world. -/
theorem end_go {w : Action.St} {m : Bus.BMsg} {st : List Bus.Frame} {batch : List Bus.BMsg} (hb : Action.blocked w = false)
    (hp : w.bus.phase = .visit m st true batch) (hc : w.cur = .plain ∨ ∃ p id, w.cur = .providing p id) :
    Action.step w (.run .go) = .to { w with bus := { w.bus with phase := .visit m st false batch }, cur := .idle, inside := none } := by
  rcases hc with hc | ⟨p, id, hc⟩ <;>
  simp only [Action.step, Action.run, hb, hp, Bus.rstep, hc, Action.mayEnd] <;> rfl

/-- What an exception leaving a callback does to the world. -/
theorem end_throwing {w : Action.St} {m : Bus.BMsg} {st : List Bus.Frame} {batch : List Bus.BMsg} (hb : Action.blocked w = false)
    (hp : w.bus.phase = .visit m st true batch) (hc : w.cur = .plain) :
    Action.step w (.run .throwing) = .to { w with bus := { w.bus with phase := .off, fates := w.bus.fates ++ batch.map (fun _ => .lost) }, cur := .idle, inside := none } := by
  simp only [Action.step, Action.run, hb, hp, Bus.rstep, hc, Action.mayEnd]; rfl

/-- The bus thread is never stuck in the plugin's code: as long as the instance exists it can go on. -/
theorem C84_code_can_go_on (σ : St) (h : Reachable σ) (hm : mine σ = true) (hl : σ.life ≠ .destroyed) :
    ∃ σ', step σ .code = .to σ' := by
  have hb := h.free hm
  obtain ⟨m, st, batch, hp⟩ := mine_inCb h hm
  simp only [step, codeStep, hm, Bool.true_eq_false, if_false, if_neg hl]
  rcases mine_running hm with ⟨p, id, hc, hpr⟩ | ⟨hc, d, hd, hs⟩
  · rw [hc]
    simp only
    by_cases hsd : σ.said = true
    · rw [if_pos hsd, end_go hb hp (.inr ⟨p, id, hc⟩)]
      exact ⟨_, rfl⟩
    · rw [if_neg hsd]
      obtain ⟨x, hx, _⟩ := h.inv.1.prov p hpr
      have hlt := (h.world.own.provs p x hx).pub
      have : ∃ w, Action.step σ.world (.respond p id reply) = .to w := by
        simp only [Action.step, hx, Bus.step, if_pos hlt]
        exact ⟨_, rfl⟩
      obtain ⟨w, hw⟩ := this
      rw [hw]
      exact ⟨_, rfl⟩
  · rw [hc]
    simp only [hd]
    by_cases hi : isString d.msg.dg = true
    · rw [if_pos hi, end_go hb hp (.inl hc)]
      exact ⟨_, rfl⟩
    · rw [if_neg hi, end_throwing hb hp hc]
      exact ⟨_, rfl⟩

theorem requested_mem {p : Nat} {evs : List Ev} {id : Str} : id ∈ requested p evs ↔ ∃ k t, Ev.requested p k id t ∈ evs := by
  unfold requested
  rw [List.mem_filterMap]
  constructor
  · rintro ⟨e, he, h⟩
    cases e with
    | answered _ _ _ _ => cases h
    | requested p' k id' t =>
      simp only at h
      split at h
      · cases h; subst_vars; exact ⟨k, t, he⟩
      · cases h
  · rintro ⟨k, t, h⟩
    exact ⟨_, h, by simp⟩

theorem responded_mem {p : Nat} {l : List (Nat × Str × Tree)} {r : Str × Tree} : r ∈ responded p l ↔ (p, r) ∈ l := by
  unfold responded
  rw [List.mem_filterMap]
  constructor
  · rintro ⟨⟨p', r'⟩, he, h⟩
    simp only at h
    split at h
    · cases h; subst_vars; exact he
    · cases h
  · intro h
    exact ⟨_, h, by simp⟩

/-- The subscriber is only given messages on its topic. -/
theorem heard_topic {σ : St} (h : Reachable σ) {d : Delivery} (hd : d ∈ σ.world.bus.log) (hs : σ.sub = some d.sub) :
    d.msg.topic = topic ∧ d.msg ∈ σ.world.bus.published := by
  obtain ⟨_, c2, c3, _⟩ := Bus.C30_no_spurious_delivery σ.world.bus h.world.bus d hd
  rw [(h.inv.1.sub _ hs).2.1] at c3
  refine ⟨?_, List.mem_of_getElem? c2⟩
  rcases c3 with c3 | c3
  · exact c3.symm
  · exact absurd c3 (by decide)

/-- Honest other code and string messages make an event honest, and the plugin's answers are obedient. -/
theorem under_honest {id : Str} {p : Nat} {σ τ : St} {a : Act} {x : Action.Act} (h : Reachable σ) (hp : σ.prov = some p) (h1 : step σ a = .to τ)
    (e : under σ a = some x) (honest : ∀ y, a = .world y → Action.Honest actionTopic id p σ.world y)
    (strings : ∀ m ∈ σ.world.bus.published, m.topic = topic → isString m.dg = true) :
    Action.Honest actionTopic id p σ.world x ∧ Action.Obedient p (fun _ => reply) σ.world x := by
  have nores : (∀ id u, x ≠ .respond p id u) → Action.Obedient p (fun _ => reply) σ.world x :=
    fun hx id u ex => absurd ex (hx id u)
  cases step_eff h1 with
  | world a w g1 g2 g3 =>
    cases e
    exact ⟨honest _ rfl, nores (fun id u => (touches_sub g1).2.2 p hp id u)⟩
  | init0 w g1 g2 => simp only [under, g1] at e; cases e; exact ⟨trivial, nores (by simp)⟩
  | init1 w g1 g2 => simp only [under, g1] at e; cases e; exact ⟨trivial, nores (by simp)⟩
  | init2 w g1 g2 => simp only [under, g1] at e; cases e; exact ⟨trivial, nores (by simp)⟩
  | init3 w g1 g2 => simp only [under, g1] at e; cases e; exact ⟨trivial, nores (by simp)⟩
  | init4 s q w g1 g2 g3 g4 => simp only [under, g1, g2, g3] at e; cases e; exact ⟨trivial, nores (by simp)⟩
  | beat q w g1 g2 g3 g4 =>
    simp only [under, g3, Option.map] at e; cases e
    refine ⟨?_, nores (by simp)⟩
    intro sender hbears
    have ht := (h.inv.1.pub q g3).2
    rcases hbears.1 with hx | hx
    · simp only [ht] at hx; exact absurd hx (by decide)
    · simp only [ht] at hx; exact absurd hx (by decide)
  | unsub s w g1 g2 g3 => simp [under, g1, g2] at e; subst e; exact ⟨trivial, nores (by simp)⟩
  | unpub q w g1 g2 g3 => simp [under, g1, g2] at e; subst e; exact ⟨trivial, nores (by simp)⟩
  | destroy g1 => cases e
  | respond p' id' w g1 g2 g3 g4 g5 =>
    simp only [under, g1, g3] at e; cases e
    rw [hp] at g2; cases g2
    refine ⟨fun _ _ => rfl, ?_⟩
    intro id'' u eq
    cases eq
    have : id' ∈ requested p σ.world.evs := by
      rw [h.inv.2.book p hp, g1, g3]; simp [Action.showing]
    obtain ⟨k, t, hk⟩ := requested_mem.1 this
    exact ⟨k, t, hk, rfl⟩
  | leave p' id' w g1 g2 g3 g4 g5 => simp only [under, g1, g3] at e; cases e; exact ⟨trivial, nores (by simp)⟩
  | heard d w g1 g2 g3 g4 g5 =>
    have hd := List.mem_of_getLast? g2
    obtain ⟨t1, t2⟩ := heard_topic h hd g3
    have hst := strings _ t2 t1
    simp only [under, g1, g2, Option.map, hst, if_true] at e; cases e
    exact ⟨trivial, nores (by simp)⟩

/-- The provider does not change once it exists. -/
theorem prov_step {p : Nat} {σ τ : St} {a : Act} (h : Reachable σ) (hp : σ.prov = some p) (h1 : step σ a = .to τ) : τ.prov = some p := by
  have hn := h.inv.2.begun
  cases step_eff h1 with
  | init4 s q w g1 g2 g3 g4 => rw [hn _ g1] at hp; cases hp
  | _ => exact hp

/-- Honest other code and string messages make the whole execution honest, and the plugin's answers are obedient. -/
theorem unders_honest {id : Str} {p : Nat} {σ σ' : St} {as : List Act} (h : Reachable σ) (hp : σ.prov = some p) (he : exec σ as = .to σ')
    (honest : Along (Action.Honest actionTopic id p) σ as)
    (strings : ∀ m ∈ σ'.world.bus.published, m.topic = topic → isString m.dg = true) :
    Action.Along (Action.Honest actionTopic id p) σ.world (unders σ as) ∧
    Action.Along (Action.Obedient p (fun _ => reply)) σ.world (unders σ as) := by
  induction as generalizing σ with
  | nil => exact ⟨trivial, trivial⟩
  | cons a as ih =>
    obtain ⟨τ, h1, h2⟩ := exec_cons he
    have hrest := ih (h.step h1) (prov_step h hp h1) h2 (honest.2 _ h1)
    simp only [unders, h1]
    rcases under_step h1 with ⟨e, hw⟩ | ⟨x, e, hw⟩
    · rw [e]; simp only [Option.toList, List.nil_append]; rw [← hw]; exact hrest
    · rw [e]; simp only [Option.toList, List.cons_append, List.nil_append]
      have key := under_honest h hp h1 e honest.1 (fun m hm => strings m ((Action.talk_exec (unders_exec he)).subset hm))
      exact ⟨⟨key.1, fun w hw' => by rw [hw] at hw'; cases hw'; exact hrest.1⟩,
        ⟨key.2, fun w hw' => by rw [hw] at hw'; cases hw'; exact hrest.2⟩⟩

/-- A consumer of "/sysinfoaction" requests with a new id. Consumer and provider stay registered and their buses running, nobody
interferes with the request, and nobody publishes anything but strings on "/sysinfo". Then, in every schedule and whatever
else goes on, once everything sent has been distributed the consumer's callback has been called exactly once for this
request, with the plugin's response, whatever the request was. -/
theorem C84_requester_gets_reply (σ₀ σ₁ σ : St) (as : List Act) (c p k : Nat) (id : Str) (t : Tree) (x : Cons) (y : Prov)
    (h : Reachable σ₀) (hp : σ₀.prov = some p) (hx : σ₀.world.cons[c]? = some x) (hT : x.topic = bs "/sysinfoaction")
    (hy : σ₀.world.provs[p]? = some y) (hfresh : Action.Fresh σ₀.world id) (hreq : step σ₀ (.world (.request c id k t)) = .to σ₁)
    (he : exec σ₁ as = .to σ)
    (hlive : Throughout (fun τ => Bus.Live τ.bus.w x.sub ∧ Bus.Live τ.bus.w y.sub ∧ Action.Attached x.pub τ.bus ∧ Action.Attached y.pub τ.bus) σ₁ as)
    (honest : Along (Action.Honest (bs "/sysinfoaction") id p) σ₁ as)
    (strings : ∀ m ∈ σ.world.bus.published, m.topic = bs "/sysinfo" → ∃ s, m.dg = .value (.str s))
    (hdist : Action.Distinct σ.world) (hidle : Bus.Idle σ.world.bus) (hin : σ.world.bus.inflight = []) (hpend : σ.world.pending = []) :
    answers c id σ.world.evs = [.answered c id (.user k) (.value (.str (bs "This is the response message.")))] := by
  have h₁ := h.step hreq
  have hp₁ : σ₁.prov = some p := by
    cases step_eff hreq with
    | world a w g1 g2 g3 => exact hp
  obtain ⟨y', hy', yT, yS, yC⟩ := h.inv.1.prov p hp
  rw [hy] at hy'; cases hy'
  have hreq' : Action.step σ₀.world (.request c id k t) = .to σ₁.world := by
    cases step_eff hreq with
    | world a w g1 g2 g3 => exact g3
  have hstr : ∀ m ∈ σ.world.bus.published, m.topic = topic → isString m.dg = true := by
    intro m hm ht
    obtain ⟨s, e⟩ := strings m hm ht
    rw [e]; rfl
  obtain ⟨a1, a2⟩ := unders_honest h₁ hp₁ he honest hstr
  have hσ := h₁.exec he
  have hpσ : σ.prov = some p := by
    have : Reachable σ₁ ∧ σ₁.prov = some p := ⟨h₁, hp₁⟩
    refine (exec_induct (P := fun τ => Reachable τ ∧ τ.prov = some p) ?_ this he).2
    rintro τ a τ' ⟨r1, r2⟩ hs
    refine ⟨r1.step hs, ?_⟩
    have hn := r1.inv.2.begun
    cases step_eff hs with
    | init4 s q w g1 g2 g3 g4 => rw [hn _ g1] at r2; cases r2
    | _ => exact r2
  have hans : ∀ k' t', Ev.requested p k' id t' ∈ σ.world.evs → (p, id, reply) ∈ σ.world.replied := by
    intro k' t' hk
    have hcur : ∀ id, σ.world.cur ≠ .providing p id := by
      intro id' hc
      have hi : Action.inCb σ.world.bus.phase = true := by
        cases hi : Action.inCb σ.world.bus.phase with
        | true => rfl
        | false => have := hσ.world.hist.idle.2 hi; rw [hc] at this; cases this
      obtain ⟨m, st, b, e⟩ := Action.inCb_visit hi
      exact hidle.2.2 _ _ _ _ e
    obtain ⟨_, _, e3, e4⟩ := C84_each_request_answered_once σ hσ p hpσ
    have hm : id ∈ requested p σ.world.evs := requested_mem.2 ⟨k', t', hk⟩
    rw [e4 hcur] at hm
    obtain ⟨r, hr, er⟩ := List.mem_map.1 hm
    have e5 := e3 r hr
    have := responded_mem.1 hr
    obtain ⟨r1, r2⟩ := r
    simp only at er e5
    subst er e5
    exact this
  exact Action.C48_request_response σ₀.world σ₁.world σ.world (unders σ₁ as) c p id k t (fun _ => reply) x y h.world hx hy
    (hT.trans yT.symm) (by rw [yC]; simp) hfresh hreq' (unders_exec he) (unders_throughout he hlive) (by rw [yT]; exact a1) a2 hdist hidle hin hpend hans

/-! ## C85 -/

/-- Once `Deinitialize` has deleted the subscriber, its lambda never runs again. -/
theorem C85_subscriber_silent (σ τ σ' : St) (as : List Act) (s : Nat) (h : Reachable σ) (hl : σ.life = .loaded) (hsub : σ.sub = some s)
    (hd : step σ .deinit = .to τ) (he : exec τ as = .to σ') :
    Bus.received s σ'.world.bus.log = Bus.received s σ.world.bus.log := by
  have hw : Action.step σ.world (.bus (.deleteSub σ.bus s)) = .to τ.world := by
    cases step_eff hd with
    | unsub s' w g1 g2 g3 => rw [hsub] at g2; cases g2; exact g3
    | unpub q w g1 => rw [hl] at g1; cases g1
  obtain ⟨o1, o2, o3⟩ := h.inv.1.sub s hsub
  generalize hb : τ.world = wτ at hw
  cases Action.step_eff hw with
  | client a b g1 g2 =>
    have hlog : τ.world.bus.log = σ.world.bus.log := by
      rw [hb]; exact (Bus.step_external h.world.bus.inv.wok (fun c e => by cases e) g2).log
    have hi : Bus.Inv τ.world.bus := (h.step hd).world.bus.inv
    have hg : Bus.Gone s τ.world.bus := by
      rw [hb]
      simp only [Bus.step] at g2
      split at g2 <;> cases g2
      rename_i hx
      refine ⟨hx.2.1, ?_⟩
      intro c hc
      simp only [Bus.deleteSubscriber, Bus.outcome, Bus.World.setBus, Bus.World.setSub] at hc
      split at hc
      · simp at hc
      · rename_i hne
        have h1 := (h.world.bus.inv.wok.subsHome c s hc).2
        exact hne (h1.symm.trans o3)
    obtain ⟨l, e1, _, _⟩ := Action.exec_bus (unders_exec he)
    unfold Bus.received
    rw [Bus.gone_silent hi hg e1, hlog]

/-- The action provider, on the other hand, is never taken back: whatever happens after `Initialize`, destruction of the instance
included, its request subscriber is registered on the plugin's bus and still leads to the plugin's lambda. -/
theorem C85_provider_stays (σ : St) (h : Reachable σ) (p : Nat) (hp : σ.prov = some p) :
    ∃ x : Prov, σ.world.provs[p]? = some x ∧ x.topic = bs "/sysinfoaction" ∧ x.cb = some 0 ∧
      x.sub ∈ (σ.world.bus.w.bus σ.bus).subs ∧ Action.fnOf <$> (σ.world.bus.w.sub x.sub).cb = some (.provider p) := by
  obtain ⟨x, h1, h2, h3, h4⟩ := h.inv.1.prov p hp
  refine ⟨x, h1, h2, h4, (h.inv.1.rsub _ h3).2.2.2, ?_⟩
  have := h.world.own.provs p x h1
  rw [this.cb]
  have : Action.fnOf (3 * p + 2) = .provider p := by
    unfold Action.fnOf
    rw [if_neg (by omega), if_pos (by omega)]
    congr 1; omega
  simp [this]

/-- A delivery to the request subscriber puts the bus thread into the plugin's lambda. -/
theorem shown {σ σ' : St} {p : Nat} {x : Prov} {d : Delivery} {id : Str} (h : Reachable σ) (hp : σ.prov = some p)
    (hx : σ.world.provs[p]? = some x) {a : Action.Act} {w : Action.St} (hs : Action.step σ.world a = .to w) (hw : σ'.world = w)
    (hp' : σ'.prov = some p) (hd : Delivers σ.world w d) (hsub : d.sub = x.sub) (hid : idOf d.msg.dg = some id) :
    mine σ' = true ∧ σ'.world.cur = .providing p id := by
  obtain ⟨y, hy, _, _, yC⟩ := h.inv.1.prov p hp
  rw [hx] at hy; cases hy
  obtain ⟨ch, b, rfl, hb, hr, h3, h4, h6, rfl⟩ := Action.deliver_step hs hd
  have hf := (h.world.own.provider h6).2 ⟨x, hx, hsub⟩
  have hc : σ'.world.cur = .providing p id := by
    rw [hw]; simp only [Action.dispatch, hf, hid, hx, yC]
  exact ⟨by unfold mine; rw [hc, hp']; simp, hc⟩

theorem stuck {σ σ' : St} {as : List Act} (h : Reachable σ) (hl : σ.life = .destroyed) (hm : mine σ = true) (he : exec σ as = .to σ') :
    Reachable σ' ∧ σ'.life = .destroyed ∧ mine σ' = true ∧ σ'.world.cur = σ.world.cur ∧ σ'.world.bus.log = σ.world.bus.log ∧
      σ'.world.bus.phase = σ.world.bus.phase := by
  refine exec_induct (P := fun τ => Reachable τ ∧ τ.life = .destroyed ∧ mine τ = true ∧ τ.world.cur = σ.world.cur ∧
      τ.world.bus.log = σ.world.bus.log ∧ τ.world.bus.phase = σ.world.bus.phase) ?_ ⟨h, hl, hm, rfl, rfl, rfl⟩ he
  rintro τ a τ' ⟨r1, r2, r3, r4, r5, r6⟩ hs
  have ha : a ≠ .code := by
    rintro rfl
    simp [step, codeStep, r3, r2] at hs
  obtain ⟨k1, k2, k3, k4, _⟩ := mine_stays r1 r3 ha hs
  refine ⟨r1.step hs, ?_, k1, k2.trans r4, k3.trans r5, k4.trans r6⟩
  cases step_eff hs with
  | world a w g1 g2 g3 => exact r2
  | init0 w g1 => rw [r2] at g1; cases g1
  | init1 w g1 => rw [r2] at g1; cases g1
  | init2 w g1 => rw [r2] at g1; cases g1
  | init3 w g1 => rw [r2] at g1; cases g1
  | init4 s q w g1 => rw [r2] at g1; cases g1
  | beat q w g1 => rw [r2] at g1; cases g1
  | unsub s w g1 => rw [r2] at g1; cases g1
  | unpub s w g1 => rw [r2] at g1; cases g1
  | destroy g1 => rfl
  | respond p id w g1 g2 g3 g4 => exact absurd r2 g4
  | leave p id w g1 g2 g3 g4 => exact absurd r2 g4
  | heard d w g1 g2 g3 g4 => exact absurd r2 g4

/-- A request that reaches the provider after the instance has been destroyed makes the bus thread execute the lambda of the
destroyed object: whatever else happens before, its next step is undefined behaviour and there is no other. -/
theorem C85_request_after_destruction (σ σ' : St) (h : Reachable σ) (hl : σ.life = .destroyed) (p : Nat) (hp : σ.prov = some p)
    (x : Prov) (hx : σ.world.provs[p]? = some x) (a : Action.Act) (hs : step σ (.world a) = .to σ') (d : Delivery)
    (hd : Delivers σ.world σ'.world d) (hsub : d.sub = x.sub) (id : Str) (hid : idOf d.msg.dg = some id) :
    ∀ as τ, exec σ' as = .to τ → step τ .code = .undefined ∧ (∀ c, step τ (.world (.run c)) = .cannot) ∧
      τ.world.bus.log = σ'.world.bus.log := by
  have hw : Action.step σ.world a = .to σ'.world ∧ σ'.prov = some p ∧ σ'.life = .destroyed := by
    cases step_eff hs with
    | world a w g1 g2 g3 => exact ⟨g3, hp, hl⟩
  obtain ⟨hm, hc⟩ := shown h hp hx hw.1 rfl hw.2.1 hd hsub hid
  intro as τ he
  obtain ⟨k1, k2, k3, k4, k5, k6⟩ := stuck (h.step hs) hw.2.2 hm he
  refine ⟨by simp [step, codeStep, k3, k2], fun c => by simp [step, k3, byCallback], k5⟩

/-- Nobody can use the action once the plugin is unloaded: if a well-formed request is published after the destruction of the
instance, with the plugin's bus running and no callback throwing, then no execution brings the bus to rest again. -/
theorem C85_never_at_rest_again (σ σ' : St) (as : List Act) (h : Reachable σ) (hl : σ.life = .destroyed) (p : Nat) (hp : σ.prov = some p)
    (x : Prov) (hx : σ.world.provs[p]? = some x) (he : exec σ as = .to σ')
    (hlive : Throughout (fun τ => Bus.RunPath τ.bus.w 0 σ.bus) σ as) (hc : .world (.run .throwing) ∉ as)
    (m : Bus.BMsg) (hm : m ∈ σ'.world.bus.published) (hn : m ∉ σ.world.bus.published)
    (ht : m.topic = bs "/sysinfoaction/request") (id : Str) (hid : idOf m.dg = some id) : ¬ Bus.Idle σ'.world.bus := by
  intro hidle
  obtain ⟨y, hy, yT, yS, yC⟩ := h.inv.1.prov p hp
  rw [hx] at hy; cases hy
  have hsane : ∀ (as : List Act) (τ : St), Reachable τ → τ.life = .destroyed → τ.bus = σ.bus → τ.prov = some p → τ.rsub = some x.sub →
      exec τ as = .to σ' → .world (.run .throwing) ∉ as → Throughout (fun τ => Bus.RunPath τ.bus.w 0 σ.bus) τ as →
      (.run .throwing ∉ unders τ as ∧ Throughout (fun τ => Bus.Live τ.bus.w x.sub) τ as) := by
    intro as
    induction as with
    | nil =>
      intro τ r1 r2 r3 r4 r5 he' _ ht'
      obtain ⟨g1, g2, g3, g4⟩ := r1.inv.1.rsub _ r5
      refine ⟨by simp [unders], ?_⟩
      obtain ⟨y, hy, _, yS', _⟩ := r1.inv.1.prov p r4
      rw [r5] at yS'; have yS' := Option.some.inj yS'
      exact ⟨by rw [g2]; exact g4, by rw [yS', (r1.world.own.provs p y hy).cb]; simp, by rw [g2, r3]; exact ht'⟩
    | cons a as ih =>
      intro τ r1 r2 r3 r4 r5 he' hno ht'
      obtain ⟨ρ, q1, q2⟩ := exec_cons he'
      have hsame : ρ.life = .destroyed ∧ ρ.bus = τ.bus ∧ ρ.prov = τ.prov ∧ ρ.rsub = τ.rsub ∧ ∃ y, a = .world y := by
        cases step_eff q1 with
        | world a w g1 g2 g3 => exact ⟨r2, rfl, rfl, rfl, a, rfl⟩
        | init0 w g1 => rw [r2] at g1; cases g1
        | init1 w g1 => rw [r2] at g1; cases g1
        | init2 w g1 => rw [r2] at g1; cases g1
        | init3 w g1 => rw [r2] at g1; cases g1
        | init4 s q w g1 => rw [r2] at g1; cases g1
        | beat q w g1 => rw [r2] at g1; cases g1
        | unsub s w g1 => rw [r2] at g1; cases g1
        | unpub s w g1 => rw [r2] at g1; cases g1
        | destroy g1 => rw [r2] at g1; cases g1
        | respond p id w g1 g2 g3 g4 => exact absurd r2 g4
        | leave p id w g1 g2 g3 g4 => exact absurd r2 g4
        | heard d w g1 g2 g3 g4 => exact absurd r2 g4
      obtain ⟨s1, s2, s3, s4, z, rfl⟩ := hsame
      obtain ⟨i1, i2⟩ := ih ρ (r1.step q1) s1 (s2.trans r3) (s3.trans r4) (s4.trans r5) q2 (fun hh => hno (List.mem_cons_of_mem _ hh)) (ht'.2 _ q1)
      obtain ⟨g1, g2, g3, g4⟩ := r1.inv.1.rsub _ r5
      obtain ⟨y, hy, _, yS', _⟩ := r1.inv.1.prov p r4
      rw [r5] at yS'; have yS' := Option.some.inj yS'
      refine ⟨?_, ⟨by rw [g2]; exact g4, by rw [yS', (r1.world.own.provs p y hy).cb]; simp, by rw [g2, r3]; exact ht'.1⟩, fun ρ' hρ => by rw [q1] at hρ; cases hρ; exact i2⟩
      simp only [unders, q1, under, Option.toList, List.cons_append, List.nil_append, List.mem_cons, not_or]
      exact ⟨fun e => hno (by rw [← e]; exact List.mem_cons_self), i1⟩
  obtain ⟨n1, n2⟩ := hsane as σ h hl rfl hp yS he hc hlive
  have hown := h.world.own.provs p x hx
  have htop : Bus.TopicRule (σ'.world.bus.w.sub x.sub).topic m.topic := by
    obtain ⟨x', hx', e1, e2, _⟩ := (Action.mono_exec (unders_exec he)).provs p x hx
    have := ((h.exec he).world.own.provs p x' hx').subTopic
    rw [e2] at this
    rw [this, e1, yT, ht]; exact .inl rfl
  obtain ⟨d, d1, d2, d3, d4⟩ := Action.delivered h.world (unders_exec he) hown.sub (unders_throughout he n2) n1 hidle hm hn htop
  have key : ∀ (as : List Act) (τ : St), Reachable τ → τ.life = .destroyed → τ.prov = some p → d ∉ τ.world.bus.log → exec τ as = .to σ' →
      mine σ' = true ∧ Reachable σ' := by
    intro as
    induction as with
    | nil => intro τ _ _ _ hd he'; cases he'; exact absurd d1 hd
    | cons a as ih =>
      intro τ r1 r2 r3 hd he'
      obtain ⟨ρ, q1, q2⟩ := exec_cons he'
      have hsame : ρ.life = .destroyed ∧ ρ.prov = τ.prov ∧ ∃ y, a = .world y ∧ Action.step τ.world y = .to ρ.world := by
        cases step_eff q1 with
        | world a w g1 g2 g3 => exact ⟨r2, rfl, a, rfl, g3⟩
        | init0 w g1 => rw [r2] at g1; cases g1
        | init1 w g1 => rw [r2] at g1; cases g1
        | init2 w g1 => rw [r2] at g1; cases g1
        | init3 w g1 => rw [r2] at g1; cases g1
        | init4 s q w g1 => rw [r2] at g1; cases g1
        | beat q w g1 => rw [r2] at g1; cases g1
        | unsub s w g1 => rw [r2] at g1; cases g1
        | unpub s w g1 => rw [r2] at g1; cases g1
        | destroy g1 => rw [r2] at g1; cases g1
        | respond p id w g1 g2 g3 g4 => exact absurd r2 g4
        | leave p id w g1 g2 g3 g4 => exact absurd r2 g4
        | heard d w g1 g2 g3 g4 => exact absurd r2 g4
      obtain ⟨s1, s2, z, rfl, s3⟩ := hsame
      by_cases hin : d ∈ ρ.world.bus.log
      · have hdel : Delivers τ.world ρ.world d := by
          unfold Delivers
          have hlogs := Action.log_step s3
          rcases hlogs with e | ⟨d', e⟩
          · rw [e] at hin; exact absurd hin hd
          · rw [e] at hin ⊢
            rcases List.mem_append.1 hin with hin | hin
            · exact absurd hin hd
            · simp only [List.mem_singleton] at hin; rw [hin]
        obtain ⟨y, hy, _, _, _⟩ := r1.inv.1.prov p r3
        have hxy : y.sub = x.sub := by
          obtain ⟨x1, e1, _, e2, _⟩ := (Action.mono_exec (unders_exec he)).provs p x hx
          obtain ⟨y1, f1, _, f2, _⟩ := (Action.mono_exec (unders_exec he')).provs p y hy
          rw [e1] at f1; cases f1
          rw [← f2, e2]
        obtain ⟨m1, _⟩ := shown r1 r3 hy s3 rfl (s2.trans r3) hdel (d2.trans hxy.symm) (by rw [d3]; exact hid)
        obtain ⟨k1, k2, k3, _⟩ := stuck (r1.step q1) s1 m1 q2
        exact ⟨k3, k1⟩
      · exact ih ρ (r1.step q1) s1 (s2.trans r3) hin q2
  obtain ⟨k1, k2⟩ := key as σ h hl hp d4 he
  obtain ⟨m', st, batch, hph⟩ := mine_inCb k2 k1
  exact hidle.2.2 _ _ _ _ hph

/-- As long as the instance exists, nothing the plugin itself does is undefined. -/
theorem C85_defined_while_alive (σ : St) (h : Reachable σ) (hl : σ.life ≠ .destroyed) (a : Act) (hu : step σ a = .undefined) :
    ∃ x, a = .world x ∧ Action.step σ.world x = .undefined := by
  have lifted : ∀ {r : Action.Next Action.St} {k : Action.St → St}, lift r k = .undefined → r = .undefined := by
    intro r k e; cases r <;> first | rfl | cases e
  have bus : ∀ x, Action.step σ.world (.bus x) ≠ .undefined := by
    intro x e
    simp only [Action.step] at e
    split at e
    · cases hb : Bus.step σ.world.bus x <;> simp [hb, Action.lift] at e
    · cases e
  have run : ∀ c, Action.step σ.world (.run c) ≠ .undefined := by
    intro c e
    simp only [Action.step, Action.run] at e
    repeat' split at e
    all_goals cases e
  have respond : ∀ p id t, Action.step σ.world (.respond p id t) ≠ .undefined := by
    intro p id t e
    simp only [Action.step] at e
    split at e
    · cases e
    · rename_i x hx
      cases hb : Bus.step σ.world.bus (.pubPublish x.pub (envelope (bs "response") id t)) <;> simp [hb, Action.lift] at e
  have prov : ∀ s q t cb, Action.step σ.world (.provider s q t cb) ≠ .undefined := by
    intro s q t cb e
    simp only [Action.step] at e
    split at e
    · cases hb : Bus.step σ.world.bus (.setCb s (some (3 * σ.world.provs.length + 2))) <;> simp [hb, Action.lift] at e
    · cases e
  have hset := h.set
  cases a with
  | world x =>
    simp only [step] at hu
    split at hu
    · cases hu
    · exact ⟨x, rfl, lifted hu⟩
  | init =>
    simp only [step] at hu
    split at hu
    · unfold initStep at hu
      split at hu
      · exact absurd (lifted hu) (bus _)
      · exact absurd (lifted hu) (bus _)
      · exact absurd (lifted hu) (bus _)
      · exact absurd (lifted hu) (bus _)
      · split at hu
        · exact absurd (lifted hu) (prov _ _ _ _)
        · cases hu
      · cases hu
    · cases hu
  | beat =>
    simp only [step] at hu
    split at hu
    · rename_i hc
      obtain ⟨q, hq⟩ := hset.pub (by simp [hc.1, Life.done])
      rw [hq] at hu
      exact absurd (lifted hu) (bus _)
    · cases hu
  | deinit =>
    simp only [step] at hu
    split at hu
    · rename_i hc
      obtain ⟨q, hq⟩ := hset.sub (by simp [hc, Life.done])
      rw [hq] at hu
      exact absurd (lifted hu) (bus _)
    · rename_i hc
      obtain ⟨q, hq⟩ := hset.pub (by simp [hc, Life.done])
      rw [hq] at hu
      exact absurd (lifted hu) (bus _)
    · cases hu
  | destroy => simp only [step] at hu; split at hu <;> cases hu
  | code =>
    simp only [step, codeStep, if_neg hl] at hu
    split at hu
    · cases hu
    · split at hu
      · split at hu
        · exact absurd (lifted hu) (run _)
        · exact absurd (lifted hu) (respond _ _ _)
      · split at hu
        · exact absurd (lifted hu) (run _)
        · cases hu

/-! ## C86 -/

/-- `datagram.Get<std::string>()` returns exactly when the document is a string, and otherwise throws `InvalidOperationException`. -/
theorem C86_get_throws_iff (s : DState) (hs : LP.Reachable s) (x : Nat) (t : Tree) (ht : Holds s x t) (pd : Dbl → Str) (po : Nat → Nat → Str) :
    observeAt pd po (.getVal .str) [] s x =
      match t with
      | .value (.str v) => some (.ok (.val (.str v)))
      | _ => some (.error .invalidOperation) := by
  rw [ht.observeAt hs.inv]
  cases t with
  | value v => cases v <;> simp [Tree.answer, Val.ty, Tree.editAt, Tree.eTouch, Tree.subAt]
  | empty => simp [Tree.answer, Tree.editAt, Tree.eTouch, Tree.subAt]
  | list ts => simp [Tree.answer, Tree.editAt, Tree.eTouch, Tree.subAt]
  | dict ds => simp [Tree.answer, Tree.editAt, Tree.eTouch, Tree.subAt]

/-- "/sysinfo" is not the topic of the private subscribers of an action. -/
theorem other_topic (t : Str) : Action.requestTopic t ≠ topic ∧ Action.responseTopic t ≠ topic := by
  constructor <;>
  · intro e
    have := congrArg (fun l => l.getLast?) e
    simp only [Action.requestTopic, Action.responseTopic, topic, List.getLast?_append] at this
    cases t.getLast? <;> exact absurd this (by simp [bs])

/-- A message that is not a string, published by anyone on "/sysinfo", ends the bus: when it reaches the plugin's subscriber, then
whatever happens in between, the next step of the bus thread is that the exception leaves `Run`, and the messages
drained together with it are lost. A string is taken and the distribution goes on. -/
theorem C86_only_strings (σ σ' : St) (h : Reachable σ) (a : Action.Act) (d : Delivery) (hs : step σ (.world a) = .to σ')
    (hd : Delivers σ.world σ'.world d) (hsub : σ.sub = some d.sub) (as : List Act) (τ : St)
    (he : exec σ' as = .to τ) (hno : .code ∉ as) (hl : τ.life ≠ .destroyed) :
    d.msg.topic = bs "/sysinfo" ∧ τ.world.bus.phase = σ'.world.bus.phase ∧ (∀ c, step τ (.world (.run c)) = .cannot) ∧
    ∃ ρ, step τ .code = .to ρ ∧ ρ.world.bus.log = σ'.world.bus.log ∧
      ((∃ s, d.msg.dg = .value (.str s)) ∧ ρ.world.bus.fates = τ.world.bus.fates ∧ ρ.world.bus.phase.batch = τ.world.bus.phase.batch ∨
       (∀ s, d.msg.dg ≠ .value (.str s)) ∧ ρ.world.bus.phase = .off ∧
         ρ.world.bus.fates = τ.world.bus.fates ++ τ.world.bus.phase.batch.map (fun _ => .lost)) := by
  have hw : Action.step σ.world a = .to σ'.world ∧ σ'.sub = some d.sub := by
    cases step_eff hs with
    | world a w g1 g2 g3 => exact ⟨g3, hsub⟩
  have hlog := hd
  obtain ⟨ch, b, rfl, hb, hr, h3, h4, h6, e⟩ := Action.deliver_step hw.1 hd
  have hplain : Action.fnOf d.cb = .user := by
    have ht := (h.inv.1.sub _ hsub).2.1
    cases hf : Action.fnOf d.cb with
    | user => rfl
    | consumer c =>
      obtain ⟨x, hx, hxs⟩ := (h.world.own.consumer h6).1 hf
      rw [hxs, (h.world.own.cons c x hx).subTopic] at ht
      exact absurd ht (other_topic _).2
    | provider p =>
      obtain ⟨x, hx, hxs⟩ := (h.world.own.provider h6).1 hf
      rw [hxs, (h.world.own.provs p x hx).subTopic] at ht
      exact absurd ht (other_topic _).1
  have hc : σ'.world.cur = .plain := by
    rw [e]; simp only [Action.dispatch, hplain]
  have hlast : σ'.world.bus.log.getLast? = some d := by
    unfold Delivers at hlog; rw [hlog]; simp
  have hm : mine σ' = true := by
    unfold mine; rw [hc, hlast, hw.2]; simp
  have key : Reachable τ ∧ mine τ = true ∧ τ.world.cur = .plain ∧ τ.world.bus.log = σ'.world.bus.log ∧
      τ.world.bus.phase = σ'.world.bus.phase := by
    have : ∀ (as : List Act) (ρ : St), Reachable ρ → mine ρ = true → .code ∉ as → exec ρ as = .to τ →
        Reachable τ ∧ mine τ = true ∧ τ.world.cur = ρ.world.cur ∧ τ.world.bus.log = ρ.world.bus.log ∧
          τ.world.bus.phase = ρ.world.bus.phase := by
      intro as
      induction as with
      | nil => intro ρ r1 r2 _ he'; cases he'; exact ⟨r1, r2, rfl, rfl, rfl⟩
      | cons x as ih =>
        intro ρ r1 r2 hn he'
        obtain ⟨ρ', q1, q2⟩ := exec_cons he'
        obtain ⟨k1, k2, k3, k4, _⟩ := mine_stays r1 r2 (fun e => hn (by rw [← e]; exact List.mem_cons_self)) q1
        obtain ⟨j1, j2, j3, j4, j5⟩ := ih ρ' (r1.step q1) k1 (fun hh => hn (List.mem_cons_of_mem _ hh)) q2
        exact ⟨j1, j2, j3.trans k2, j4.trans k3, j5.trans k4⟩
    have := this as σ' (h.step hs) hm hno he
    rw [hc] at this; exact this
  obtain ⟨k1, k2, k3, k4, k5⟩ := key
  have htop : d.msg.topic = bs "/sysinfo" := by
    refine (heard_topic (h.step hs) ?_ hw.2).1
    exact List.mem_of_getLast? hlast
  refine ⟨htop, k5, fun c => by simp [step, k2, byCallback], ?_⟩
  have hlast' : τ.world.bus.log.getLast? = some d := by rw [k4]; exact hlast
  have hfree := k1.free k2
  obtain ⟨m, st, batch, hp⟩ := mine_inCb k1 k2
  simp only [step, codeStep, k2, Bool.true_eq_false, if_false, if_neg hl, k3, hlast']
  by_cases hstr : ∃ s, d.msg.dg = .value (.str s)
  · obtain ⟨s, es⟩ := hstr
    have hi : isString d.msg.dg = true := by rw [es]; rfl
    rw [if_pos hi, end_go hfree hp (.inl k3)]
    refine ⟨_, rfl, k4, .inl ⟨⟨s, es⟩, rfl, ?_⟩⟩
    rw [hp]; rfl
  · have hns : isString d.msg.dg = false := by
      cases hi : isString d.msg.dg with
      | false => rfl
      | true =>
        unfold isString at hi
        split at hi
        · rename_i s es; exact absurd ⟨s, es⟩ hstr
        · cases hi
    rw [if_neg (by rw [hns]; simp), end_throwing hfree hp k3]
    refine ⟨_, rfl, k4, .inr ⟨fun s es => hstr ⟨s, es⟩, rfl, ?_⟩⟩
    rw [hp]; rfl

/-! ## C87 -/

/-- `Initialize` reads, for every configuration document, whether heartbeats are sent: exactly if the document has the Boolean `true`
at "send-datagram". The document is only read. -/
theorem C87_configuration {h : Heap} {cfg : Nat} {t : Tree} (ht : Rep h (fun x => x < h.next) t cfg) :
    ∃ b, configure cfg h = .ok b h ∧ (b = true ↔ t.walk [bs "send-datagram"] = some (.value (.bool true))) := by
  have c : Tree.components (bs "send-datagram") = [bs "send-datagram"] := by decide
  have hp : Datagram.pathGet cfg .bool (bs "send-datagram") (.bool false) h = .ok ((t.valueAt .bool [bs "send-datagram"]).getD (.bool false)) h := by
    rw [← c]; exact pathGet_rep .bool (.bool false) _ _ cfg t (Nat.lt_succ_self _) ht
  refine ⟨Link.boolAt t [bs "send-datagram"] false, by simp only [configure, M.bind_run, hp, M.pure_run, Link.flag_at], ?_⟩
  unfold Link.boolAt
  split
  · rename_i b e; rw [e]; simp
  · rename_i hne
    constructor
    · simp
    · intro e; exact absurd e (hne true)

/-- With the setting, a loaded instance on a bus that has not been detached can send its heartbeat whatever the rest is doing: "Hello
Bus!" on "/sysinfo" in the name of the plugin's bus. -/
theorem C87_heartbeat (σ : St) (h : Reachable σ) (hl : σ.life = .loaded) (hs : σ.send = true)
    (ha : (σ.world.bus.w.bus σ.bus).attached = true) :
    ∃ σ', step σ .beat = .to σ' ∧ σ'.world.bus.inflight = σ.world.bus.inflight ++
      [⟨(σ.world.bus.w.bus σ.bus).name, bs "/sysinfo", .value (.str (bs "Hello Bus!"))⟩] := by
  obtain ⟨q, hq⟩ := h.set.pub (by simp [hl, Life.done])
  obtain ⟨o1, o2⟩ := h.inv.1.pub q hq
  have act := h.set.active (by simp [hl, Life.publishing]) q hq
  have home := h.set.home q hq
  have hmay : Action.clientMay σ.world (.pubPublish q greeting) = true := by
    have hne : Action.ownedPub σ.world q = false := by
      cases ho : Action.ownedPub σ.world q with
      | false => rfl
      | true =>
        exfalso
        simp only [Action.ownedPub, Bool.or_eq_true, List.any_eq_true, beq_iff_eq] at ho
        rcases ho with ⟨x, hx, e⟩ | ⟨x, hx, e⟩
        · obtain ⟨c, hc⟩ := List.getElem?_of_mem hx
          have := (h.world.own.cons c x hc).pubTopic
          rw [e, o2] at this
          exact (other_topic _).1 this.symm
        · obtain ⟨c, hc⟩ := List.getElem?_of_mem hx
          have := (h.world.own.provs c x hc).pubTopic
          rw [e, o2] at this
          exact (other_topic _).2 this.symm
    simp [Action.clientMay, hne]
  have hw : Action.step σ.world (.bus (.pubPublish q greeting)) = .to { σ.world with bus := { σ.world.bus with inflight := σ.world.bus.inflight ++
      [⟨(σ.world.bus.w.bus σ.bus).name, bs "/sysinfo", .value (.str (bs "Hello Bus!"))⟩] } } := by
    simp only [Action.step, hmay, if_true, Bus.step, if_pos o1, Bus.pubPublish, act, Bus.publishTopic, Bus.publishMsg, home, ha, o2, Action.lift]
    rfl
  have e : step σ .beat = lift (Action.step σ.world (.bus (.pubPublish q greeting))) (fun w => { σ with world := w }) := by
    simp only [step]
    rw [if_pos ⟨hl, hs⟩]
    simp only [hq]
  rw [e, hw]
  exact ⟨_, rfl, rfl⟩

/-- Without the setting, or once unloading has begun, it sends none. -/
theorem C87_no_heartbeat (σ σ' : St) (as : List Act)
    (hs : σ.send = false ∨ σ.life = .unsubscribed ∨ σ.life = .deinitialised ∨ σ.life = .destroyed) (he : exec σ as = .to σ') : .beat ∉ as := by
  induction as generalizing σ with
  | nil => simp
  | cons a as ih =>
    obtain ⟨τ, h1, h2⟩ := exec_cons he
    have key : a ≠ .beat ∧ (τ.send = false ∨ τ.life = .unsubscribed ∨ τ.life = .deinitialised ∨ τ.life = .destroyed) := by
      cases step_eff h1 with
      | init0 w g1 => rw [g1] at hs; rcases hs with hs | hs | hs | hs <;> first | exact ⟨by simp, .inl hs⟩ | cases hs
      | init1 w g1 => rw [g1] at hs; rcases hs with hs | hs | hs | hs <;> first | exact ⟨by simp, .inl hs⟩ | cases hs
      | init2 w g1 => rw [g1] at hs; rcases hs with hs | hs | hs | hs <;> first | exact ⟨by simp, .inl hs⟩ | cases hs
      | init3 w g1 => rw [g1] at hs; rcases hs with hs | hs | hs | hs <;> first | exact ⟨by simp, .inl hs⟩ | cases hs
      | init4 s q w g1 => rw [g1] at hs; rcases hs with hs | hs | hs | hs <;> first | exact ⟨by simp, .inl hs⟩ | cases hs
      | beat q w g1 g2 => rw [g1, g2] at hs; rcases hs with hs | hs | hs | hs <;> cases hs
      | unsub s w g1 => exact ⟨by simp, .inr (.inl rfl)⟩
      | unpub s w g1 => exact ⟨by simp, .inr (.inr (.inl rfl))⟩
      | destroy g1 => exact ⟨by simp, .inr (.inr (.inr rfl))⟩
      | world a w g1 g2 g3 => exact ⟨by simp, hs⟩
      | respond p id w g1 g2 g3 g4 g5 => exact ⟨by simp, hs⟩
      | leave p id w g1 g2 g3 g4 g5 => exact ⟨by simp, hs⟩
      | heard d w g1 g2 g3 g4 g5 => exact ⟨by simp, hs⟩
    intro hm
    rcases List.mem_cons.1 hm with e | hm
    · exact key.1 e.symm
    · exact ih τ key.2 h2 hm

/-! ## The hypotheses can be met -/

-- an instance that sends heartbeats on its bus, and one that does not while something happens
example : (∃ σ, Reachable σ ∧ σ.life = .loaded ∧ σ.send = true ∧ (σ.world.bus.w.bus σ.bus).attached = true) ∧
    ∃ σ σ', Reachable σ ∧ σ.send = false ∧ exec σ (saying (bs "/sysinfo") (.value (.str (bs "one"))) ++ thread 8 ++ [.code]) = .to σ' := by
  constructor
  · obtain ⟨σ, h, e⟩ := play_obs client 0 true load (fun σ => (decide (σ.life = .loaded), σ.send, (σ.world.bus.w.bus σ.bus).attached))
      (true, true, true) (by decide +kernel)
    simp only [Prod.mk.injEq, decide_eq_true_eq] at e
    exact ⟨σ, h, e⟩
  · obtain ⟨σ, σ', h, he, e⟩ := play_obs2 client 0 false load (saying (bs "/sysinfo") (.value (.str (bs "one"))) ++ thread 8 ++ [.code])
      (fun σ _ => σ.send) false (by decide +kernel)
    exact ⟨σ, σ', h, e, he⟩

/-- The course of the first example: the request is on its way, a heartbeat passes, the plugin answers. -/
def course : List Act :=
  [.world (.send 0), .world (.bus (.push 0)), .beat, .world (.bus (.push 0))] ++ thread 9 ++ [.code, .world (.bus (.push 0)), .code] ++
    thread 8 ++ [.code] ++ thread 24

/-- The events of other code in it. -/
def expected (_ : Action.St) : Action.Act → Bool
  | .send _ => true
  | .bus (.push _) => true
  | .run .go => true
  | _ => false

/-- Its state before the request. -/
def before (σ : St) : Bool :=
  (σ.world.cons.map (fun x => (x.topic, x.sub, x.pub)) == [(bs "/sysinfoaction", 0, 0)]) &&
    (σ.world.provs.map (fun x => (x.sub, x.pub)) == [(2, 2)]) && (σ.prov == some 0) &&
    (σ.world.bus.inflight ++ σ.world.bus.published).isEmpty && σ.world.asked.isEmpty && σ.world.replied.isEmpty

/-- Its final state. -/
def after (σ : St) : Bool :=
  σ.world.bus.inflight.isEmpty && σ.world.pending.isEmpty && σ.world.bus.w.queue.isEmpty &&
    (match σ.world.bus.phase with | .asleep => true | _ => false) && (σ.world.asked.map (fun a => (a.cons, a.id)) == [(0, bs "1")]) &&
    σ.world.bus.published.all (fun m => m.topic != bs "/sysinfo" || isString m.dg)

theorem isString_some {t : Tree} (h : isString t = true) : ∃ s, t = .value (.str s) := by
  unfold isString at h
  split at h
  · exact ⟨_, rfl⟩
  · cases h

-- all hypotheses of `C84_requester_gets_reply`: a request is answered while heartbeats are sent
example : ∃ σ₀ σ₁ σ x y, Reachable σ₀ ∧ σ₀.prov = some 0 ∧ σ₀.world.cons[0]? = some x ∧ x.topic = bs "/sysinfoaction" ∧
    σ₀.world.provs[0]? = some y ∧ Action.Fresh σ₀.world (bs "1") ∧ step σ₀ (.world (.request 0 (bs "1") 5 (.value (.int 7)))) = .to σ₁ ∧
    exec σ₁ course = .to σ ∧
    Throughout (fun τ => Bus.Live τ.bus.w x.sub ∧ Bus.Live τ.bus.w y.sub ∧ Action.Attached x.pub τ.bus ∧ Action.Attached y.pub τ.bus) σ₁ course ∧
    Along (Action.Honest (bs "/sysinfoaction") (bs "1") 0) σ₁ course ∧
    (∀ m ∈ σ.world.bus.published, m.topic = bs "/sysinfo" → ∃ s, m.dg = .value (.str s)) ∧
    Action.Distinct σ.world ∧ Bus.Idle σ.world.bus ∧ σ.world.bus.inflight = [] ∧ σ.world.pending = [] ∧
    (σ.world.bus.published.map (fun m => m.topic)) = [bs "/sysinfoaction/request", bs "/sysinfo", bs "/sysinfoaction/response"] ∧
    (requested 0 σ.world.evs, (responded 0 σ.world.replied).map Prod.fst) = ([bs "1"], [bs "1"]) := by
  obtain ⟨σ₀, σ, h, he, e⟩ := play_obs2 client 0 true load (.world (.request 0 (bs "1") 5 (.value (.int 7))) :: course)
    (fun σ₀ σ => (before σ₀, (match step σ₀ (.world (.request 0 (bs "1") 5 (.value (.int 7)))) with
        | .to σ₁ => watch (fun τ => Action.atRoot 0 0 τ.bus && Action.atRoot 2 2 τ.bus) expected σ₁ course
        | _ => false), after σ, [σ.world.bus.published.map (fun m => m.topic), requested 0 σ.world.evs, (responded 0 σ.world.replied).map Prod.fst] ==
      [[bs "/sysinfoaction/request", bs "/sysinfo", bs "/sysinfoaction/response"], [bs "1"], [bs "1"]]))
    (true, true, true, true) (by decide +kernel)
  simp only [Prod.mk.injEq, List.cons.injEq, and_true, beq_iff_eq] at e
  obtain ⟨e1, e2, e3, e4, e5⟩ := e
  obtain ⟨σ₁, h1, h2⟩ := exec_cons he
  rw [h1] at e2
  simp only at e2
  simp only [before, Bool.and_eq_true, beq_iff_eq, List.isEmpty_iff] at e1
  obtain ⟨⟨⟨⟨⟨b1, b2⟩, b0⟩, b3⟩, b4⟩, b5⟩ := e1
  obtain ⟨x, hx, x1⟩ := List.map_eq_singleton_iff.1 b1
  obtain ⟨y, hy, y1⟩ := List.map_eq_singleton_iff.1 b2
  simp only [Prod.mk.injEq] at x1 y1
  obtain ⟨x1, x2, x3⟩ := x1
  obtain ⟨y2, y3⟩ := y1
  simp only [after, Bool.and_eq_true, beq_iff_eq, List.isEmpty_iff] at e3
  obtain ⟨⟨⟨⟨⟨a1, a2⟩, a3⟩, a4⟩, a5⟩, a6⟩ := e3
  have hp : σ.world.bus.phase = .asleep := by cases hp : σ.world.bus.phase <;> simp [hp] at a4 ⊢
  obtain ⟨w1, w2⟩ := watch_sound (P' := fun τ => (Bus.Live τ.bus.w 0 ∧ Action.Attached 0 τ.bus) ∧ Bus.Live τ.bus.w 2 ∧ Action.Attached 2 τ.bus)
    (Q' := Action.Honest (bs "/sysinfoaction") (bs "1") 0)
    (fun τ h => by
      simp only [Bool.and_eq_true] at h
      exact ⟨Action.atRoot_sound h.1, Action.atRoot_sound h.2⟩)
    (fun τ a h => by
      unfold expected at h
      split at h <;> first | trivial | cases h) e2
  refine ⟨σ₀, σ₁, σ, x, y, h, b0, by rw [hx]; rfl, x1, by rw [hy]; rfl, ?_, h1, h2, ?_, w2, ?_, ?_, ?_, a1, a2, e4, Prod.ext e5.1 e5.2⟩
  · refine ⟨?_, ?_, ?_⟩
    · rw [b3]; simp
    · rw [b4]; simp
    · rw [b5]; simp
  · rw [x2, x3, y2, y3]
    exact throughout_imp (fun _ h => ⟨h.1.1, h.2.1, h.1.2, h.2.2⟩) w1
  · intro m hm ht
    have := List.all_eq_true.1 a6 m hm
    rw [ht] at this
    simp only [bne_self_eq_false, Bool.false_or] at this
    exact isString_some this
  · unfold Action.Distinct; rw [a5]; decide
  · exact ⟨a3, by rw [hp]; rfl, by rw [hp]; simp⟩

-- the bus thread is in the callback of the provider
example : ∃ σ, Reachable σ ∧ mine σ = true ∧ σ.life = .loaded := by
  obtain ⟨σ, h, e⟩ := play_obs client 0 true (load ++ asking (bs "1") (.value (.int 7)) ++ thread 9)
    (fun σ => (mine σ, decide (σ.life = .loaded))) (true, true) (by decide +kernel)
  simp only [Prod.mk.injEq, decide_eq_true_eq] at e
  exact ⟨σ, h, e⟩

-- a subscriber that has received a message is deleted, and another message goes round
example : ∃ σ τ σ', Reachable σ ∧ σ.life = .loaded ∧ σ.sub = some 1 ∧ step σ .deinit = .to τ ∧
    exec τ (saying (bs "/sysinfo") (.value (.str (bs "two"))) ++ thread 24) = .to σ' ∧
    Bus.received 1 σ.world.bus.log = [0] ∧ σ'.world.bus.published.length = 2 ∧ σ'.world.bus.w.queue.length = 0 := by
  obtain ⟨σ, σ', h, he, e⟩ := play_obs2 client 0 true (load ++ saying (bs "/sysinfo") (.value (.str (bs "one"))) ++ thread 8 ++ [.code] ++ thread 9)
    (.deinit :: (saying (bs "/sysinfo") (.value (.str (bs "two"))) ++ thread 24))
    (fun σ σ' => (decide (σ.life = .loaded), σ.sub, Bus.received 1 σ.world.bus.log, σ'.world.bus.published.length, σ'.world.bus.w.queue.length))
    (true, some 1, [0], 2, 0) (by decide +kernel)
  simp only [Prod.mk.injEq, decide_eq_true_eq] at e
  obtain ⟨e1, e2, e3, e4, e5⟩ := e
  obtain ⟨τ, h1, h2⟩ := exec_cons he
  exact ⟨σ, τ, σ', h, e1, e2, h1, h2, e3, e4, e5⟩

/-- The id in a message. -/
def idOfLast (σ : St) : Option (Nat × Option Str) := σ.world.bus.log.getLast?.map (fun d => (d.sub, idOf d.msg.dg))

theorem delivers_of_length {w w' : Action.St} {d : Delivery} (hp : w.bus.log = w'.bus.log.dropLast) (hd : w'.bus.log.getLast? = some d) :
    Delivers w w' d := by
  obtain ⟨ys, hys⟩ := List.getLast?_eq_some_iff.1 hd
  unfold Delivers
  rw [hp, hys]; simp

/-- Whether an event was a delivery. -/
def grew (σ σ' : St) : Bool := σ'.world.bus.log.length == σ.world.bus.log.length + 1

theorem grew_delivers {σ σ' : St} {a : Action.Act} (hs : step σ (.world a) = .to σ') (hg : grew σ σ' = true) :
    ∃ d, Delivers σ.world σ'.world d ∧ σ'.world.bus.log.getLast? = some d := by
  have hw : Action.step σ.world a = .to σ'.world := by
    cases step_eff hs with
    | world a w g1 g2 g3 => exact g3
  have hlogs : σ'.world.bus.log = σ.world.bus.log ∨ ∃ d', σ'.world.bus.log = σ.world.bus.log ++ [d'] := Action.log_step hw
  simp only [grew, beq_iff_eq] at hg
  rcases hlogs with e | ⟨d, e⟩
  · rw [e] at hg; omega
  · exact ⟨d, e, by rw [e]; simp⟩

-- a request reaches the provider of a destroyed instance
example : ∃ σ σ' x d, Reachable σ ∧ σ.life = .destroyed ∧ σ.prov = some 0 ∧ σ.world.provs[0]? = some x ∧
    step σ (.world (.run .go)) = .to σ' ∧ Delivers σ.world σ'.world d ∧ d.sub = x.sub ∧ idOf d.msg.dg = some (bs "1") := by
  obtain ⟨σ, σ', h, he, e⟩ := play_obs2 client 0 true (load ++ unload ++ asking (bs "1") (.value (.int 7)) ++ thread 7)
    [.world (.run .go)]
    (fun σ σ' => (decide (σ.life = .destroyed), σ.prov, σ.world.provs.map (fun x => x.sub), grew σ σ', idOfLast σ' == some (2, some (bs "1"))))
    (true, some 0, [2], true, true) (by decide +kernel)
  simp only [Prod.mk.injEq, decide_eq_true_eq, beq_iff_eq] at e
  obtain ⟨e1, e2, e3, e4, e5⟩ := e
  obtain ⟨τ, h1, h2⟩ := exec_cons he
  cases h2
  obtain ⟨d, d1, d2⟩ := grew_delivers h1 e4
  obtain ⟨x, hx, x1⟩ := List.map_eq_singleton_iff.1 e3
  simp only [idOfLast, d2, Option.map, Option.some.injEq, Prod.mk.injEq] at e5
  exact ⟨σ, _, x, d, h, e1, e2, by rw [hx]; rfl, h1, d1, e5.1.trans x1.symm, e5.2⟩

-- such a request, all hypotheses of `C85_never_at_rest_again`
example : ∃ σ σ' as x m, Reachable σ ∧ σ.life = .destroyed ∧ σ.prov = some 0 ∧ σ.world.provs[0]? = some x ∧ exec σ as = .to σ' ∧
    Throughout (fun τ => Bus.RunPath τ.bus.w 0 σ.bus) σ as ∧ .world (.run .throwing) ∉ as ∧ m ∈ σ'.world.bus.published ∧
    m ∉ σ.world.bus.published ∧ m.topic = bs "/sysinfoaction/request" ∧ idOf m.dg = some (bs "1") := by
  obtain ⟨σ, σ', h, he, e⟩ := play_obs2 client 0 true (load ++ unload) (asking (bs "1") (.value (.int 7)) ++ thread 8)
    (fun σ σ' => (decide (σ.life = .destroyed), σ.prov, σ.world.provs.map (fun x => x.sub),
      (σ.bus, watch (fun τ => (τ.bus.w.bus 0).running) (fun _ _ => true) σ (asking (bs "1") (.value (.int 7)) ++ thread 8)),
      σ.world.bus.published.length, σ'.world.bus.published.map (fun m => (m.topic, idOf m.dg)) == [(bs "/sysinfoaction/request", some (bs "1"))]))
    (true, some 0, [2], (0, true), 0, true) (by decide +kernel)
  simp only [Prod.mk.injEq, decide_eq_true_eq, beq_iff_eq] at e
  obtain ⟨e1, e2, e3, ⟨e4, e5⟩, e6, e7⟩ := e
  obtain ⟨x, hx, _⟩ := List.map_eq_singleton_iff.1 e3
  obtain ⟨m, hm, m1⟩ := List.map_eq_singleton_iff.1 e7
  simp only [Prod.mk.injEq] at m1
  refine ⟨σ, σ', _, x, m, h, e1, e2, by rw [hx]; rfl, he, ?_, by simp [asking, thread], by rw [hm]; simp, ?_, m1.1, m1.2⟩
  · rw [e4]
    exact (watch_sound (P' := fun τ => Bus.RunPath τ.bus.w 0 0) (Q' := fun _ _ => True) (fun τ h => .refl h) (fun _ _ _ => trivial) e5).1
  · rw [List.length_eq_zero_iff.1 e6]; simp

-- a number is published on "/sysinfo" and reaches the plugin's subscriber, with another message drained after it
example : ∃ σ σ' d, Reachable σ ∧ step σ (.world (.run .go)) = .to σ' ∧ Delivers σ.world σ'.world d ∧ σ.sub = some d.sub ∧
    σ'.life = .loaded ∧ isString d.msg.dg = false ∧ σ'.world.bus.phase.batch.length = 1 := by
  obtain ⟨σ, σ', h, he, e⟩ := play_obs2 client 0 true
    (load ++ saying (bs "/sysinfo") (.value (.int 7)) ++ saying (bs "/sysinfo") (.value (.str (bs "x"))) ++ thread 7)
    [.world (.run .go)]
    (fun σ σ' => (σ.sub, decide (σ'.life = .loaded), grew σ σ', σ'.world.bus.log.getLast?.map (fun d => (d.sub, isString d.msg.dg)) == some (1, false),
      σ'.world.bus.phase.batch.length))
    (some 1, true, true, true, 1) (by decide +kernel)
  simp only [Prod.mk.injEq, decide_eq_true_eq, beq_iff_eq] at e
  obtain ⟨e1, e2, e3, e4, e5⟩ := e
  obtain ⟨τ, h1, h2⟩ := exec_cons he
  cases h2
  obtain ⟨d, d1, d2⟩ := grew_delivers h1 e3
  simp only [d2, Option.map, Option.some.injEq, Prod.mk.injEq] at e4
  exact ⟨σ, _, d, h, h1, d1, by rw [e1, e4.1], e2, e4.2, e5⟩

-- a configuration with heartbeats and one with a number in place of the Boolean
example : ((Tree.dict [(bs "send-datagram", .value (.bool true))]).walk [bs "send-datagram"] = some (.value (.bool true))) ∧
    ((Tree.dict [(bs "send-datagram", .value (.int 1))]).walk [bs "send-datagram"] ≠ some (.value (.bool true))) := by
  constructor <;> simp [Tree.walk, Dict.find]

-- a configuration in memory without the setting
example : ∃ b, configure 0 Link.Ex.config = .ok b Link.Ex.config :=
  let ⟨b, h, _⟩ := C87_configuration Link.Ex.config_rep
  ⟨b, h⟩

-- a dictionary in memory
example : ∃ s t, LP.Reachable s ∧ Holds s 0 t := by
  obtain ⟨s, hs, hx⟩ := Ex.state1
  obtain ⟨t, ht⟩ := hs.inv.holds hx
  exact ⟨s, t, hs, ht⟩

end LP.SysInfo
