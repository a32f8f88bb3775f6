import Verif.Lemma.ActionDone
/-!
# Blocking requests (C51, C52, C53)

`stored` and `signalled` (`Verif.Spec.Action`) say how far the processing of the response has come on the bus thread.
-/
namespace LP.Action
set_option synthInstance.maxSize 1024
open LP.Bus (Delivery)

/-! ## C51 -/

/-- The moment a blocking `Request` returns, in any schedule: only through its own thread (predicate true) or its
timeout; it returns the first response for its id if the bus thread has assigned one by then, and an Empty datagram if
not, and in the latter case the timeout had expired. -/
theorem C51_returns_first_response_or_empty (σ σ' : St) (a : Act) (h : Reachable σ) (hd : Distinct σ) (n : Nat) (f f' : Frame)
    (hf : σ.frames[n]? = some f) (hn : f.pc ≠ .done) (hs : step σ a = .to σ') (hf' : σ'.frames[n]? = some f')
    (hn' : f'.pc = .done) :
    (a = .timeout n ∨ a = .wait n ∧ signalled σ f.cons f.id = true) ∧
    ((stored σ f.cons f.id = none ∧ a = .timeout n ∧ f'.result = some .empty) ∨
     ∃ r ∈ σ.asked, r.cons = f.cons ∧ r.id = f.id ∧ r.cb = .frame n ∧ ∃ x d, σ.cons[r.cons]? = some x ∧
       (responses x.sub r.id (σ.bus.log.drop r.seen)).head? = some d ∧
       stored σ f.cons f.id = some (responseOf d.msg.dg) ∧ f'.result = some (responseOf d.msg.dg)) := by
  obtain ⟨g, hg, e | ⟨_, e⟩ | ⟨_, e, _, _, _, ha⟩⟩ := frame_step h.calls hs hf
  · rw [hf'] at hg; cases hg; subst e; exact absurd hn' hn
  · rw [hf'] at hg; cases hg; exact absurd hn' e
  · rw [hf'] at hg; cases hg
    obtain ⟨c1, c2⟩ := h.content hd n f hf
    have ha' : a = .timeout n ∨ a = .wait n ∧ signalled σ f.cons f.id = true := by
      rcases ha with ha | ⟨ha, hw⟩
      · exact .inl ha
      · rw [c2] at hw
        exact .inr ⟨ha, by simpa using hw⟩
    refine ⟨ha', ?_⟩
    have hres : f'.result = some ((stored σ f.cons f.id).getD .empty) := by rw [e, ← c1]; rfl
    cases hst : stored σ f.cons f.id with
    | none =>
      refine .inl ⟨rfl, ?_, by rw [hres, hst]; rfl⟩
      rcases ha' with ha' | ⟨_, hsig⟩
      · exact ha'
      · obtain ⟨u, hu⟩ := signalled_stored hsig
        rw [hst] at hu; cases hu
    | some u =>
      obtain ⟨r, hr, e1, e2, e3, x, d, hx, hd', hu⟩ := stored_first h hd hf hst
      subst hu
      exact .inr ⟨r, hr, e1, e2, e3, x, d, hx, hd', rfl, by rw [hres, hst]; rfl⟩

/-- What a call has returned does not change, whatever arrives later. -/
theorem C51_result_final (σ σ' : St) (as : List Act) (h : Reachable σ) (he : exec σ as = .to σ') (n : Nat) (f : Frame)
    (hf : σ.frames[n]? = some f) (hn : f.pc = .done) : σ'.frames[n]? = some f ∧ ∃ t, f.result = some t :=
  ⟨done_kept h he hf hn, ⟨f.response, by rw [h.calls.result n f hf, if_pos hn]⟩⟩

/-- A call can always come to an end by events of its own thread and its timeout, without any help of the bus thread:
at most one `Publish`, then at most two steps to fall asleep, then the timeout. -/
theorem C51_always_finishes (σ : St) (h : Reachable σ) (n : Nat) (f : Frame) (hf : σ.frames[n]? = some f) (hn : f.pc ≠ .done) :
    ∃ as σ' f', as.length ≤ 4 ∧ (∀ a ∈ as, a = .wait n ∨ a = .timeout n ∨ ∃ i, a = .send i) ∧ exec σ as = .to σ' ∧
      σ'.frames[n]? = some f' ∧ f'.pc = .done := by
  by_cases hp : f.pc = .sending
  · obtain ⟨i, τ, g, h1, h2, h3, _⟩ := can_send h hf hp
    obtain ⟨as, σ', f', l, m, e1, e2, e3⟩ := can_finish h2 (by rw [h3]; decide) (by rw [h3]; decide)
    refine ⟨.send i :: as, σ', f', by simp; omega, ?_, ?_, e2, e3⟩
    · intro a ha
      rcases List.mem_cons.1 ha with rfl | ha
      · exact .inr (.inr ⟨i, rfl⟩)
      · rcases m a ha with e | e
        · exact .inl e
        · exact .inr (.inl e)
    · rw [exec, h1]; exact e1
  · obtain ⟨as, σ', f', l, m, e1, e2, e3⟩ := can_finish hf hp hn
    refine ⟨as, σ', f', by omega, ?_, e1, e2, e3⟩
    intro a ha
    rcases m a ha with e | e
    · exact .inl e
    · exact .inr (.inl e)

/-- Once the bus thread has signalled (line 59), a waiting call returns the response as soon as its thread looks: no
timeout is needed if it is woken (or not yet asleep). -/
theorem C51_signalled_returns_response (σ : St) (h : Reachable σ) (hd : Distinct σ) (n : Nat) (f : Frame)
    (hf : σ.frames[n]? = some f) (hp : f.pc ≠ .sending) (hn : f.pc ≠ .done) (hsig : signalled σ f.cons f.id = true) :
    ∃ k σ' f' u, k ≤ 3 ∧ exec σ (List.replicate k (.wait n)) = .to σ' ∧ σ'.frames[n]? = some f' ∧ f'.pc = .done ∧
      stored σ f.cons f.id = some u ∧ f'.result = some u := by
  obtain ⟨c1, c2⟩ := h.content hd n f hf
  obtain ⟨u, hu⟩ := signalled_stored hsig
  obtain ⟨k, σ', f', hk, e1, e2, e3⟩ := can_leave hf hp hn (by rw [c2, hsig]; rfl)
  refine ⟨k, σ', f', u, hk, e1, e2, e3, hu, ?_⟩
  have hresp : ∀ (k : Nat) (τ : St) (g : Frame), Reachable τ → exec τ (List.replicate k (.wait n)) = .to σ' → τ.frames[n]? = some g →
      g.pc ≠ .done → g.response = u → f'.result = some u := by
    intro k
    induction k with
    | zero =>
      intro τ g _ he hg hgd _
      cases he
      rw [hg] at e2; cases e2; exact absurd e3 hgd
    | succ k ih =>
      intro τ g hr he hg hgd hgu
      obtain ⟨ρ, h1, h2⟩ := exec_cons he
      have hr' := hr.step h1
      simp only [step, hg] at h1
      split at h1
      · cases h1
        by_cases hw : g.waiting = true
        · simp only [hw, if_true] at h2 hr'
          exact ih _ { g with waiting := true, pc := .drowsy } hr' h2
            (by simp only; rw [set_getElem? hg, if_pos rfl]) (by simp) hgu
        · simp only [if_neg hw] at h2 hr'
          have := done_kept hr' h2 (n := n) (f := finish g) (by simp only; rw [set_getElem? hg, if_pos rfl]) rfl
          rw [this] at e2; cases e2
          simp [finish, hgu]
      · cases h1
        exact ih _ { g with pc := .asleep } hr' h2 (by simp only; rw [set_getElem? hg, if_pos rfl]) (by simp) hgu
      · cases h1
        exact ih _ { g with pc := .check } hr' h2 (by simp only; rw [set_getElem? hg, if_pos rfl]) (by simp) hgu
      · cases h1
  exact hresp k σ f h e1 hf hn (by rw [c1, hu]; rfl)

/-- A call by consumer 0 that has fallen asleep. -/
def calling (id : Str) (n : Int32) : List Act :=
  [.begin 0 id (.value (.int n)) false, .send 0, .bus (.push 0), .wait 0, .wait 0]

/-- The bus thread executes the lambda to its end. -/
def lambdas : List Act := List.replicate 4 .lambda

/-- A blocking call as plain data: position, id, integer returned. -/
structure Call where
  pc : Wait
  id : Str
  ret : Option (Option Int32)
  deriving DecidableEq

/-- The blocking calls as plain data. -/
def plainCalls (l : List Frame) : List Call := l.map (fun f => ⟨f.pc, f.id, f.result.map asInt⟩)

/-- The response arrives in time. -/
example : ∃ σ σ', Reachable σ ∧ exec σ [.wait 0] = .to σ' ∧ Distinct σ ∧ signalled σ 0 (bs "1") = true ∧
    plainCalls σ.frames = [⟨.check, bs "1", none⟩] ∧ plainCalls σ'.frames = [⟨.done, bs "1", some (some 8)⟩] := by
  obtain ⟨σ, σ', h, h', e⟩ := play_obs2 (bs "r")
    (setup ++ calling (bs "1") 7 ++ thread 7 ++ answering (bs "1") 8 ++ thread 14 ++ lambdas) [.wait 0]
    (fun σ σ' => (σ.asked.map (fun a => (a.cons, a.id)), signalled σ 0 (bs "1"), plainCalls σ.frames, plainCalls σ'.frames))
    ([(0, bs "1")], true, [⟨.check, bs "1", none⟩], [⟨.done, bs "1", some (some 8)⟩]) (by decide +kernel)
  simp only [Prod.mk.injEq] at e
  refine ⟨σ, σ', h, h', ?_, e.2.1, e.2.2.1, e.2.2.2⟩
  unfold Distinct; rw [e.1]; decide

/-- No response in time: `some none` is a datagram that is not an integer (Empty). -/
example : ∃ σ σ', Reachable σ ∧ exec σ [.timeout 0] = .to σ' ∧ Distinct σ ∧ signalled σ 0 (bs "1") = false ∧
    plainCalls σ.frames = [⟨.asleep, bs "1", none⟩] ∧ plainCalls σ'.frames = [⟨.done, bs "1", some none⟩] := by
  obtain ⟨σ, σ', h, h', e⟩ := play_obs2 (bs "r") (setup ++ calling (bs "1") 7 ++ thread 7) [.timeout 0]
    (fun σ σ' => (σ.asked.map (fun a => (a.cons, a.id)), signalled σ 0 (bs "1"), plainCalls σ.frames, plainCalls σ'.frames))
    ([(0, bs "1")], false, [⟨.asleep, bs "1", none⟩], [⟨.done, bs "1", some none⟩]) (by decide +kernel)
  simp only [Prod.mk.injEq] at e
  refine ⟨σ, σ', h, h', ?_, e.2.1, e.2.2.1, e.2.2.2⟩
  unfold Distinct; rw [e.1]; decide

/-- Is the bus thread outside all callbacks? -/
def isIdle : Cur → Bool
  | .idle => true
  | _ => false

/-- The missed notification: the waiting thread has seen `waiting` set but not yet blocked when line 60 notifies. The
response is there, the bus thread has finished with it, and the caller sleeps until its timeout; it then returns the
response. -/
theorem C51_missed_notification : ∃ σ σ', Reachable σ ∧ exec σ [.timeout 0] = .to σ' ∧ Distinct σ ∧ isIdle σ.cur = true ∧
    signalled σ 0 (bs "1") = true ∧ plainCalls σ.frames = [⟨.asleep, bs "1", none⟩] ∧
    plainCalls σ'.frames = [⟨.done, bs "1", some (some 8)⟩] := by
  obtain ⟨σ, σ', h, h', e⟩ := play_obs2 (bs "r")
    (setup ++ (calling (bs "1") 7).take 4 ++ thread 7 ++ answering (bs "1") 8 ++ thread 14 ++ lambdas ++ [.run .go, .wait 0]) [.timeout 0]
    (fun σ σ' => (σ.asked.map (fun a => (a.cons, a.id)), isIdle σ.cur, signalled σ 0 (bs "1"), plainCalls σ.frames, plainCalls σ'.frames))
    ([(0, bs "1")], true, true, [⟨.asleep, bs "1", none⟩], [⟨.done, bs "1", some (some 8)⟩]) (by decide +kernel)
  simp only [Prod.mk.injEq] at e
  refine ⟨σ, σ', h, h', ?_, e.2.1, e.2.2.1, e.2.2.2.1, e.2.2.2.2⟩
  unfold Distinct; rw [e.1]; decide

/-! ## C52 -/

/-- When a call has returned without a response, its callback is still registered. -/
theorem C52_callback_stays_registered (σ : St) (h : Reachable σ) (hd : Distinct σ) (n : Nat) (f : Frame)
    (hf : σ.frames[n]? = some f) (hn : f.pc = .done) (hr : answers f.cons f.id σ.evs = []) :
    f.result = some .empty ∧ ∃ x, σ.cons[f.cons]? = some x ∧ x.opened.find f.id = some (.frame n) := by
  obtain ⟨a, ha, e1, e2, e3, x, hx, hT⟩ := frame_track h.hist h.calls h.tracks hd hf
  constructor
  · rw [h.calls.result n f hf, if_pos hn, (h.content hd n f hf).1, stored_none hr]; rfl
  · rw [e1] at hx
    refine ⟨x, hx, ?_⟩
    rcases hT with ⟨_, _, g⟩ | ⟨d, rest, _, g2, _⟩
    · rw [← e2, g, e3]
    · rw [e1, e2] at g2
      rw [g2] at hr; cases hr

/-- A response for a call that has returned without one: from the moment it is delivered, the bus thread's next step is
undefined behaviour, whatever the other threads do, and it has no other step. -/
theorem C52_late_response_undefined (σ σ' σ'' : St) (a : Act) (as : List Act) (d : Delivery) (h : Reachable σ) (hd : Distinct σ)
    (n : Nat) (f : Frame) (x : Cons) (hf : σ.frames[n]? = some f) (hn : f.pc = .done) (hr : answers f.cons f.id σ.evs = [])
    (hs : step σ a = .to σ') (hdel : Delivers σ σ' d) (hx : σ.cons[f.cons]? = some x) (hsub : d.sub = x.sub)
    (hid : idOf d.msg.dg = some f.id) (he : exec σ' as = .to σ'') :
    step σ'' .lambda = .undefined ∧ ∀ c, step σ'' (.run c) = .cannot := by
  obtain ⟨x', hx', hfind⟩ := (C52_callback_stays_registered σ h hd n f hf hn hr).2
  rw [hx] at hx'; cases hx'
  obtain ⟨c, b, rfl, h1, h2, h3, h4, h5, rfl⟩ := deliver_step hs hdel
  have hcb : d.cb = 3 * f.cons + 1 := by
    have := (h.own.cons _ _ hx).cb
    rw [← hsub, h5] at this
    exact Option.some.inj this
  have hfn : fnOf d.cb = .consumer f.cons := by
    rw [hcb]; unfold fnOf
    rw [if_pos (by omega)]
    congr 1; omega
  have e : dispatch { σ with bus := b } d = { σ with
      bus := b, cur := .answering f.cons f.id (.frame n) (responseOf d.msg.dg) .test
      evs := σ.evs ++ [.answered f.cons f.id (.frame n) (responseOf d.msg.dg)] } := by
    simp only [dispatch, hfn, hid, hx, hfind, firstStage]
  have hD : Dead n (dispatch { σ with bus := b } d) := by
    rw [e]
    exact ⟨h4, ⟨_, _, _, _, rfl, by simp⟩, f, hf, hn⟩
  have := hD.exec (h.step hs) he
  exact ⟨this.lambda, this.run⟩

/-- The only undefined behaviour of this layer: the bus thread is in the callback for a call that has returned. Hence
responses to requests with a callback of the client, to calls still waiting and to nobody are unaffected. -/
theorem C52_only_returned_calls (σ : St) (a : Act) (h : Reachable σ) (hd : Distinct σ) (hs : step σ a = .undefined) :
    ∃ (n : Nat) (f : Frame) (st : Stage), σ.frames[n]? = some f ∧ f.pc = .done ∧ stageOf f.cons f.id σ.cur = some st ∧ st ≠ .over := by
  obtain ⟨_, c, id, n, t, st, f, hc, hst, hf, hn⟩ := undefined_cases hs
  obtain ⟨g, hg, e1, e2, _⟩ := running_frame h.hist h.calls hd hc
  rw [hf] at hg; cases hg
  exact ⟨n, f, st, hf, hn, by simp [hc, stageOf, e1, e2], hst⟩

/-- A late response; the state after its delivery. -/
example : ∃ σ σ', Reachable σ ∧ exec σ [.run .go] = .to σ' ∧ Distinct σ ∧ plainCalls σ.frames = [⟨.done, bs "1", some none⟩] ∧
    (answers 0 (bs "1") σ.evs).length = 0 ∧
    (σ'.bus.log.drop σ.bus.log.length).map (fun d => (d.sub, idOf d.msg.dg)) = [(0, some (bs "1"))] ∧
    σ.cons.map (fun x => x.sub) = [0] ∧ stageOf 0 (bs "1") σ'.cur = some .test := by
  obtain ⟨σ, σ', h, h', e⟩ := play_obs2 (bs "r")
    (setup ++ calling (bs "1") 7 ++ thread 7 ++ answering (bs "1") 8 ++ thread 13 ++ [.timeout 0]) [.run .go]
    (fun σ σ' => (σ.asked.map (fun a => (a.cons, a.id)), plainCalls σ.frames, (answers 0 (bs "1") σ.evs).length,
      (σ'.bus.log.drop σ.bus.log.length).map (fun d => (d.sub, idOf d.msg.dg)), σ.cons.map (fun x => x.sub), stageOf 0 (bs "1") σ'.cur))
    ([(0, bs "1")], [⟨.done, bs "1", some none⟩], 0, [(0, some (bs "1"))], [0], some .test) (by decide +kernel)
  simp only [Prod.mk.injEq] at e
  refine ⟨σ, σ', h, h', ?_, e.2.1, e.2.2.1, e.2.2.2.1, e.2.2.2.2.1, e.2.2.2.2.2⟩
  unfold Distinct; rw [e.1]; decide

/-- Is this outcome undefined behaviour? -/
def isUndefined : Next St → Bool
  | .undefined => true
  | _ => false

/-- Even a response in time can end in undefined behaviour: after line 59 the caller may see `waiting == false`, return
the response and destroy the condition variable before line 60 notifies it. -/
theorem C52_timely_response_may_be_undefined : ∃ σ, Reachable σ ∧ Distinct σ ∧
    plainCalls σ.frames = [⟨.done, bs "1", some (some 8)⟩] ∧ step σ .lambda = .undefined := by
  obtain ⟨σ, h, e⟩ := play_obs (bs "r")
    (setup ++ (calling (bs "1") 7).take 3 ++ thread 7 ++ answering (bs "1") 8 ++ thread 14 ++ lambdas.take 3 ++ [.wait 0])
    (fun σ => (σ.asked.map (fun a => (a.cons, a.id)), plainCalls σ.frames, isUndefined (step σ .lambda)))
    ([(0, bs "1")], [⟨.done, bs "1", some (some 8)⟩], true) (by decide +kernel)
  simp only [Prod.mk.injEq] at e
  refine ⟨σ, h, ?_, e.2.1, ?_⟩
  · unfold Distinct; rw [e.1]; decide
  · have := e.2.2
    unfold isUndefined at this
    split at this
    · assumption
    · cases this

/-! ## C53 -/

/-- What holds from the beginning of a call of `Request` on the bus thread on. -/
def Stuck (n : Nat) (c : Nat) (id : Str) (σ : St) : Prop :=
  ∃ f, σ.frames[n]? = some f ∧ f.cons = c ∧ f.id = id ∧
    ((f.pc ≠ .done ∧ σ.inside = some n ∧ answers c id σ.evs = []) ∨ (f.pc = .done ∧ f.result = some .empty))

theorem stuck_step {n c : Nat} {id : Str} {σ σ' : St} {a : Act} (h : Reachable σ) (hd : Distinct σ) (hk : Stuck n c id σ)
    (hs : step σ a = .to σ') : Stuck n c id σ' := by
  obtain ⟨f, hf, e1, e2, hor⟩ := hk
  have hr' := h.step hs
  obtain ⟨f', hf', hfs⟩ := frame_step h.calls hs hf
  obtain ⟨e1', e2'⟩ : f'.cons = c ∧ f'.id = id := by
    obtain ⟨r, hr, b1, b2, b3⟩ := h.calls.back n f hf
    obtain ⟨g, hg, d1, d2⟩ := hr'.calls.fwd r (by
      obtain ⟨l, hl⟩ := (mono_step hs).asked
      rw [← hl]; exact List.mem_append_left _ hr) n b3
    rw [hf'] at hg; cases hg
    exact ⟨by rw [d1, b1, e1], by rw [d2, b2, e2]⟩
  refine ⟨f', hf', e1', e2', ?_⟩
  rcases hor with ⟨hn, hin, hans⟩ | ⟨hn, hres⟩
  · have hb : blocked σ = true := by
      unfold blocked
      simp [hin, hf, hn]
    obtain ⟨k1, k2⟩ := blocked_evs hb hs
    have same : f'.pc ≠ .done → (f'.pc ≠ .done ∧ σ'.inside = some n ∧ answers c id σ'.evs = []) ∨ (f'.pc = .done ∧ f'.result = some .empty) :=
      fun hp => .inl ⟨hp, by rw [k2, hin], by rw [k1]; exact hans⟩
    rcases hfs with e | ⟨_, e⟩ | ⟨_, e, _⟩
    · subst e; exact same hn
    · exact same e
    · refine .inr ⟨by rw [e]; rfl, ?_⟩
      rw [e]
      simp only [finish]
      rw [(h.content hd n f hf).1, stored_none (by rw [e1, e2]; exact hans)]; rfl
  · rcases hfs with e | ⟨e, _⟩ | ⟨e, _⟩
    · subst e; exact .inr ⟨hn, hres⟩
    · exact absurd hn e
    · exact absurd hn e

/-- A call of `Request` made by a callback on the bus thread, in any schedule: as long as it lasts its callback is not
invoked, so no response is stored; when it has returned it has returned Empty. -/
theorem C53_on_bus_thread_never_answered (σ σ₁ σ' : St) (c : Nat) (id : Str) (t : Tree) (as : List Act) (h : Reachable σ)
    (hb : step σ (.begin c id t true) = .to σ₁) (he : exec σ₁ as = .to σ') (hd : Distinct σ') :
    ∃ f, σ'.frames[σ.frames.length]? = some f ∧ f.cons = c ∧ f.id = id ∧
      ((f.pc ≠ .done ∧ stored σ' c id = none) ∨ (f.pc = .done ∧ f.result = some .empty)) := by
  have hr1 := h.step hb
  have key : ∀ (l : List Act) (τ : St), Reachable τ → Stuck σ.frames.length c id τ → exec τ l = .to σ' → Stuck σ.frames.length c id σ' := by
    intro l
    induction l with
    | nil => intro τ _ hk he; cases he; exact hk
    | cons a l ih =>
      intro τ hr hk he
      obtain ⟨ρ, k1, k2⟩ := exec_cons he
      exact ih ρ (hr.step k1) (stuck_step hr (Distinct.old (mono_exec he) hd) hk k1) k2
  have h0 : Stuck σ.frames.length c id σ₁ := by
    have hd1 : Distinct σ₁ := Distinct.old (mono_exec he) hd
    simp only [step] at hb
    split at hb
    · cases hb
    · rename_i x hx
      split at hb
      · cases hb
      · cases hb
        refine ⟨⟨c, id, .sending, true, .empty, none⟩, by simp, rfl, rfl, .inl ⟨by simp, by simp, ?_⟩⟩
        show answers c id σ.evs = []
        apply answers_nil h.hist
        intro a ha hac
        unfold Distinct at hd1
        simp only [register, List.map_append, List.map_cons, List.map_nil, List.nodup_append] at hd1
        exact hd1.2.2 (a.cons, a.id) (List.mem_map_of_mem ha) (c, id) (by simp) (by rw [hac.1, hac.2])
  obtain ⟨f, hf, e1, e2, hor⟩ := key as σ₁ hr1 h0 he
  refine ⟨f, hf, e1, e2, ?_⟩
  rcases hor with ⟨hn, _, hans⟩ | hor
  · exact .inl ⟨hn, stored_none hans⟩
  · exact .inr hor

/-- Its timeout is the only event that ends it. -/
theorem C53_only_timeout_ends_it (σ σ₁ σ' σ'' : St) (c : Nat) (id : Str) (t : Tree) (as : List Act) (a : Act) (h : Reachable σ)
    (hb : step σ (.begin c id t true) = .to σ₁) (he : exec σ₁ as = .to σ') (hd : Distinct σ') (f f' : Frame)
    (hf : σ'.frames[σ.frames.length]? = some f) (hn : f.pc ≠ .done) (hs : step σ' a = .to σ'')
    (hf' : σ''.frames[σ.frames.length]? = some f') (hn' : f'.pc = .done) : a = .timeout σ.frames.length := by
  obtain ⟨g, hg, e1, e2, hor⟩ := C53_on_bus_thread_never_answered σ σ₁ σ' c id t as h hb he hd
  rw [hf] at hg; cases hg
  have hst : stored σ' f.cons f.id = none := by
    rcases hor with ⟨_, k⟩ | ⟨k, _⟩
    · rw [e1, e2]; exact k
    · exact absurd k hn
  have hr' := (h.step hb).exec he
  obtain ⟨_, ⟨_, k, _⟩ | ⟨r, _, _, _, _, x, d, _, _, k, _⟩⟩ :=
    C51_returns_first_response_or_empty σ' σ'' a hr' hd _ f f' hf hn hs hf' hn'
  · exact k
  · rw [hst] at k; cases k

/-- A provider's callback calls `Request` on the consumer of the same topic; the response is in the queue, the bus
thread waits for itself. -/
example : ∃ σ σ' : St, Reachable σ ∧ exec σ ([.begin 0 (bs "2") (.value (.int 1)) true, .send 0, .bus (.push 0)] ++
      answering (bs "2") 3 ++ [.wait 0, .wait 0, .timeout 0]) = .to σ' ∧
    Distinct σ' ∧ σ.frames.length = 0 ∧ plainCalls σ'.frames = [⟨.done, bs "2", some none⟩] ∧
    (answers 0 (bs "2") σ'.evs).length = 0 := by
  obtain ⟨σ, σ', h, h', e⟩ := play_obs2 (bs "r") (setup ++ asking (bs "1") 7 ++ thread 8)
    ([.begin 0 (bs "2") (.value (.int 1)) true, .send 0, .bus (.push 0)] ++ answering (bs "2") 3 ++ [.wait 0, .wait 0, .timeout 0])
    (fun σ σ' => (σ'.asked.map (fun a => (a.cons, a.id)), σ.frames.length, plainCalls σ'.frames, (answers 0 (bs "2") σ'.evs).length))
    ([(0, bs "1"), (0, bs "2")], 0, [⟨.done, bs "2", some none⟩], 0) (by decide +kernel)
  simp only [Prod.mk.injEq] at e
  refine ⟨σ, σ', h, h', ?_, e.2.1, e.2.2.1, e.2.2.2⟩
  unfold Distinct; rw [e.1]; decide

end LP.Action
