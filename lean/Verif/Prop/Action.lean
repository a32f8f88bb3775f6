import Verif.Lemma.ActionMore
/-!
# Requests, responses and their callbacks (C45, C46, C47, C49, C50)
-/
namespace LP.Action
open LP.Bus (Delivery)

/-! ## C45 -/

/-- With distinct ids, what was called for a request is what its first response asks for: nothing before that response
reached the consumer, its own callback with the content of that response, and nothing more afterwards. (Except for
requests whose callback threw: those stay registered, see `C45_throwing_callback_runs_again`.) -/
theorem C45_first_response_once (σ : St) (h : Reachable σ) (hd : Distinct σ) (a : Asked) (ha : a ∈ σ.asked)
    (ht : (a.cons, a.id) ∉ σ.threw) :
    ∃ x, σ.cons[a.cons]? = some x ∧
      answers a.cons a.id σ.evs =
        ((responses x.sub a.id (σ.bus.log.drop a.seen)).head?.map
          (fun d => Ev.answered a.cons a.id a.cb (responseOf d.msg.dg))).toList := by
  obtain ⟨x, hx, ⟨h1, h2, _⟩ | ⟨d, rest, h1, h2, _⟩⟩ := h.tracks hd a ha ht
  · exact ⟨x, hx, by rw [h1, h2]; rfl⟩
  · exact ⟨x, hx, by rw [h1, h2]; rfl⟩

/-- In particular the callback runs at most once. -/
theorem C45_at_most_once (σ : St) (h : Reachable σ) (hd : Distinct σ) (a : Asked) (ha : a ∈ σ.asked)
    (ht : (a.cons, a.id) ∉ σ.threw) : (answers a.cons a.id σ.evs).length ≤ 1 := by
  obtain ⟨x, _, e⟩ := C45_first_response_once σ h hd a ha ht
  rw [e]
  cases (responses x.sub a.id (σ.bus.log.drop a.seen)).head? <;> simp

/-- Two responses with the same id: the first counts. -/
example : ∃ σ, Reachable σ ∧ Distinct σ ∧ σ.threw = [] ∧ σ.asked.map (fun a => (a.cons, a.id)) = [(0, bs "1")] ∧
    (responses 0 (bs "1") σ.bus.log).length = 2 ∧ plainAnswers σ.evs = [⟨0, bs "1", .user 5, some 8⟩] := by
  obtain ⟨σ, h, e⟩ := play_obs (bs "r")
    (setup ++ asking (bs "1") 7 ++ thread 7 ++ answering (bs "1") 8 ++ answering (bs "1") 9 ++ thread 27)
    (fun σ => (σ.threw, σ.asked.map (fun a => (a.cons, a.id)), (responses 0 (bs "1") σ.bus.log).length, plainAnswers σ.evs))
    ([], [(0, bs "1")], 2, [⟨0, bs "1", .user 5, some 8⟩]) (by decide +kernel)
  simp only [Prod.mk.injEq] at e
  refine ⟨σ, h, ?_, e.1, e.2.1, e.2.2.1, e.2.2.2⟩
  unfold Distinct; rw [e.2.1]; decide

/-- The exception: a request callback that throws is not removed from `mOpenRequests` (the exception passes over
ActionConsumer.cpp:78), so after the bus has been started again a second response runs it a second time. -/
theorem C45_throwing_callback_runs_again : ∃ σ, Reachable σ ∧ Distinct σ ∧ σ.threw = [(0, bs "1")] ∧
    (answers 0 (bs "1") σ.evs).length = 2 ∧ plainAnswers σ.evs = [⟨0, bs "1", .user 5, some 8⟩, ⟨0, bs "1", .user 5, some 9⟩] := by
  obtain ⟨σ, h, e⟩ := play_obs (bs "r")
    (setup ++ asking (bs "1") 7 ++ thread 7 ++ answering (bs "1") 8 ++ thread 14 ++ [.run .throwing] ++
      answering (bs "1") 9 ++ [.bus .start] ++ thread 7)
    (fun σ => (σ.threw, σ.asked.map (fun a => (a.cons, a.id)), (answers 0 (bs "1") σ.evs).length, plainAnswers σ.evs))
    ([(0, bs "1")], [(0, bs "1")], 2, [⟨0, bs "1", .user 5, some 8⟩, ⟨0, bs "1", .user 5, some 9⟩]) (by decide +kernel)
  simp only [Prod.mk.injEq] at e
  refine ⟨σ, h, ?_, e.1, e.2.2.1, e.2.2.2⟩
  unfold Distinct; rw [e.2.1]; decide

/-! ## C46 -/

/-- Whenever a request callback ran, that consumer had registered that very callback under that id, and a message with
that id and that response reached that consumer's private subscriber. -/
theorem C46_callback_only_for_own_response (σ : St) (h : Reachable σ) (c : Nat) (id : Str) (cb : Cb) (t : Tree)
    (he : Ev.answered c id cb t ∈ σ.evs) :
    (∃ a ∈ σ.asked, a.cons = c ∧ a.id = id ∧ a.cb = cb) ∧
    ∃ x, σ.cons[c]? = some x ∧ ∃ d ∈ σ.bus.log, d.sub = x.sub ∧ idOf d.msg.dg = some id ∧ t = responseOf d.msg.dg :=
  h.hist.ansEv c id cb t he

/-- One message reaching one consumer runs at most one request callback, and no provider callback: the one that this
consumer registered under the id in the message, if that is still open. -/
theorem C46_one_message_one_callback (σ σ' : St) (h : Reachable σ) (a : Act) (d : Delivery) (hs : step σ a = .to σ')
    (hd : Delivers σ σ' d) (c : Nat) (x : Cons) (hx : σ.cons[c]? = some x) (hsub : d.sub = x.sub) :
    σ'.evs = σ.evs ∨ ∃ id cb, idOf d.msg.dg = some id ∧ (∃ r ∈ σ.asked, r.cons = c ∧ r.id = id ∧ r.cb = cb) ∧
      σ'.evs = σ.evs ++ [.answered c id cb (responseOf d.msg.dg)] := by
  obtain ⟨ch, b, rfl, _, _, _, _, h6, rfl⟩ := deliver_step hs hd
  have hf := (h.own.consumer h6).2 ⟨x, hx, hsub⟩
  rcases dispatch_evs { σ with bus := b } d with e | ⟨c', y, id, cb, st, hf', hy, hid, hfi, e, _⟩ | ⟨p, y, id, k, hf', _⟩
  · exact .inl e
  · rw [hf] at hf'; cases hf'
    exact .inr ⟨id, cb, hid, h.hist.opened _ _ _ _ hy hfi, e⟩
  · rw [hf] at hf'; cases hf'

/-- A message whose id this consumer never used changes nothing but the progress of the bus, neither when the callback
is entered nor when it ends, which it does normally. -/
theorem C46_unknown_id_ignored (σ σ' : St) (h : Reachable σ) (a : Act) (d : Delivery) (hs : step σ a = .to σ')
    (hd : Delivers σ σ' d) (c : Nat) (x : Cons) (hx : σ.cons[c]? = some x) (hsub : d.sub = x.sub) (id : Str)
    (hid : idOf d.msg.dg = some id) (hun : ∀ r ∈ σ.asked, ¬(r.cons = c ∧ r.id = id)) :
    σ' = { σ with bus := σ'.bus, cur := .ignored } ∧
    (∀ ch σ'', step σ' (.run ch) = .to σ'' → ch = .go ∧ σ'' = { σ with bus := σ''.bus, cur := .idle, inside := none }) := by
  obtain ⟨ch, b, rfl, hb, _, _, h4, h6, rfl⟩ := deliver_step hs hd
  have hf := (h.own.consumer h6).2 ⟨x, hx, hsub⟩
  have hfind : x.opened.find id = none := by
    cases hfi : x.opened.find id with
    | none => rfl
    | some cb =>
      obtain ⟨r, hr, e1, e2, _⟩ := h.hist.opened _ _ _ _ hx hfi
      exact absurd ⟨e1, e2⟩ (hun r hr)
  have e : dispatch { σ with bus := b } d = { σ with bus := b, cur := .ignored } := by
    simp only [dispatch, hf, hid, hx, hfind]
  rw [e]
  refine ⟨rfl, ?_⟩
  intro ch' σ'' hr
  cases step_eff hr with
  | endCb c b' h1 h2 h3 h4 h5 h6 =>
    cases ch' with
    | go => exact ⟨rfl, rfl⟩
    | timeout => simp [mayEnd] at h6
    | throwing => simp [mayEnd] at h6
  | quiet c b' h1 h2 h3 => simp only at h3; rw [h4] at h3; cases h3
  | deliver c b' d' h1 h2 h3 => simp only at h3; rw [h4] at h3; cases h3

/-- Two consumers on one topic: the response to the second one's request passes the first by. -/
example : ∃ σ, Reachable σ ∧ σ.cons.length = 2 ∧ (responses 0 (bs "x") σ.bus.log).length = 1 ∧
    (responses 2 (bs "x") σ.bus.log).length = 1 ∧ plainAnswers σ.evs = [⟨1, bs "x", .user 6, some 8⟩] := by
  obtain ⟨σ, h, e⟩ := play_obs (bs "r")
    (setup ++ [.bus (.createPub 0 (bs "a/request")), .bus (.createSub 0 (bs "a/response") none), .consumer 2 2 (bs "a"),
      .request 1 (bs "x") 6 .empty, .send 0, .bus (.push 0)] ++ answering (bs "x") 8 ++ thread 25)
    (fun σ => (σ.cons.length, (responses 0 (bs "x") σ.bus.log).length, (responses 2 (bs "x") σ.bus.log).length, plainAnswers σ.evs))
    (2, 1, 1, [⟨1, bs "x", .user 6, some 8⟩]) (by decide +kernel)
  simp only [Prod.mk.injEq] at e
  exact ⟨σ, h, e⟩

/-- A response with an id nobody used reaches the consumer. -/
example : ∃ σ σ', Reachable σ ∧ exec σ [.run .go] = .to σ' ∧ σ.asked.length = 1 ∧ σ'.bus.log.length = σ.bus.log.length + 1 ∧
    (responses 0 (bs "zz") σ'.bus.log).length = 1 ∧ plainAnswers σ'.evs = [] := by
  obtain ⟨σ, σ', h, he, e⟩ := play_obs2 (bs "r") (setup ++ asking (bs "1") 7 ++ answering (bs "zz") 8 ++ thread 15) [.run .go]
    (fun σ σ' => (σ.asked.length, decide (σ'.bus.log.length = σ.bus.log.length + 1), (responses 0 (bs "zz") σ'.bus.log).length,
      plainAnswers σ'.evs)) (1, true, 1, []) (by decide +kernel)
  simp only [Prod.mk.injEq, decide_eq_true_eq] at e
  exact ⟨σ, σ', h, he, e⟩

/-! ## C47 -/

/-- What `RequestAsync` publishes is the envelope of a request that is already registered, and as long as it is not
answered its callback is the one found under its id. -/
theorem C47_registered_before_published (σ σ' : St) (h : Reachable σ) (i : Nat) (hs : step σ (.send i) = .to σ') :
    ∃ a ∈ σ.asked, ∃ x, σ.cons[a.cons]? = some x ∧
      σ'.bus.inflight = σ.bus.inflight ++ (Bus.pubPublish x.pub (envelope (bs "request") a.id a.request) σ.bus.w).toList ∧
      (Distinct σ → (a.cons, a.id) ∉ σ.threw → answers a.cons a.id σ.evs = [] → x.opened.find a.id = some a.cb) := by
  cases step_eff hs with
  | send i p x b h1 h2 h3 =>
    obtain ⟨a, ha, e1, e2, e3⟩ := h.pendAsked p (List.mem_of_getElem? h1)
    refine ⟨a, ha, x, by rw [e1]; exact h2, ?_, ?_⟩
    · rw [e2, e3]
      simp only [Bus.step] at h3
      split at h3 <;> cases h3
      rfl
    · intro hd ht hn
      obtain ⟨y, hy, ⟨_, _, g⟩ | ⟨d, rest, _, g, _⟩⟩ := h.tracks hd a ha ht
      · rw [e1, h2] at hy; cases hy; exact g
      · rw [hn] at g; cases g

/-- In every schedule: when a response reaches the consumer of a registered request that was not answered so far, the
callback given with the request is invoked with it. -/
theorem C47_response_finds_callback (σ σ' : St) (h : Reachable σ) (hd : Distinct σ) (a : Asked) (ha : a ∈ σ.asked)
    (ht : (a.cons, a.id) ∉ σ.threw) (hn : answers a.cons a.id σ.evs = []) (act : Act) (d : Delivery)
    (hs : step σ act = .to σ') (hdel : Delivers σ σ' d) (x : Cons) (hx : σ.cons[a.cons]? = some x) (hsub : d.sub = x.sub)
    (hid : idOf d.msg.dg = some a.id) : σ'.evs = σ.evs ++ [.answered a.cons a.id a.cb (responseOf d.msg.dg)] := by
  obtain ⟨ch, b, rfl, _, _, _, _, h6, rfl⟩ := deliver_step hs hdel
  have hf := (h.own.consumer h6).2 ⟨x, hx, hsub⟩
  obtain ⟨y, hy, ⟨_, _, g⟩ | ⟨d', rest, _, g, _⟩⟩ := h.tracks hd a ha ht
  · rw [hx] at hy; cases hy
    simp only [dispatch, hf, hid, hx, g]
  · rw [hn] at g; cases g

/-- The provider answers before `RequestAsync` has even returned: the request was just put into the queue and the
publishing call has not yet notified the bus thread. -/
example : ∃ σ σ', Reachable σ ∧ exec σ [.run .go] = .to σ' ∧ σ.bus.toNotify = 2 ∧ σ.asked.length = 1 ∧
    plainAnswers σ.evs = [] ∧ σ.threw.isEmpty = true ∧ plainAnswers σ'.evs = [⟨0, bs "1", .user 5, some 8⟩] := by
  obtain ⟨σ, σ', h, he, e⟩ := play_obs2 (bs "r") (setup ++ asking (bs "1") 7 ++ thread 7 ++ answering (bs "1") 8 ++ thread 13)
    [.run .go] (fun σ σ' => (σ.bus.toNotify, σ.asked.length, plainAnswers σ.evs, σ.threw.isEmpty, plainAnswers σ'.evs))
    (2, 1, [], true, [⟨0, bs "1", .user 5, some 8⟩]) (by decide +kernel)
  simp only [Prod.mk.injEq] at e
  exact ⟨σ, σ', h, he, e⟩

/-! ## C49 -/

/-- The envelope has exactly two entries. -/
theorem C49_envelope_entries (id : Str) (t : Tree) :
    envelope (bs "request") id t = .dict [(bs "invocationId", .value (.str id)), (bs "request", t)] :=
  envelope_request id t

/-- It never compares equal to the bare request, in either direction. -/
theorem C49_envelope_not_request (id : Str) (t : Tree) :
    ¬Same (envelope (bs "request") id t) t ∧ ¬Same t (envelope (bs "request") id t) := by
  have h : ¬Same (envelope (bs "request") id t) t :=
    not_same_entry (bs "request") t.depth t (Nat.le_refl _) _ (by rfl)
  exact ⟨h, fun hs => h hs.symm⟩

/-- What a request published by `RequestAsync` makes a provider on the topic see: the whole envelope. -/
theorem C49_provider_sees_envelope (σ σ' : St) (h : Reachable σ) (a : Act) (d : Delivery) (hs : step σ a = .to σ')
    (hd : Delivers σ σ' d) (p : Nat) (x : Prov) (hx : σ.provs[p]? = some x) (hsub : d.sub = x.sub) (id : Str) (t : Tree)
    (hm : d.msg.dg = envelope (bs "request") id t) (k : Nat) (hk : x.cb = some k) :
    σ'.evs = σ.evs ++ [.requested p k id (.dict [(bs "invocationId", .value (.str id)), (bs "request", t)])] := by
  obtain ⟨ch, b, rfl, _, _, _, _, h6, rfl⟩ := deliver_step hs hd
  have hf := (h.own.provider h6).2 ⟨x, hx, hsub⟩
  simp only [dispatch, hf, hm, idOf_request, hx, hk]
  rfl

/-- The statements of ActionConsumer.cpp:35-37 (key "request") and ActionProvider.cpp:27-29 (key "response") on new
variable `w`, content in variable `y`. -/
def wrapping (w y : Nat) (key id : Str) : List Stmt :=
  [.decl w .empty, .setVal w [.key (bs "invocationId")] (.str id), .assignInto w [.key key] y]

/-- They build the envelope of the content. -/
theorem C49_wrapping_builds_envelope (prog : List Stmt) (s : DState) (ex : List (Option Exn))
    (hp : Stmt.runAll prog Cmd.init = some (s, ex)) (w y : Nat) (hw : w ≠ y) (key id : Str) (t : Tree) (hy : Holds s y t) :
    ∃ s', Stmt.runAll (wrapping w y key id) s = some (s', [none, none, none]) ∧ Holds s' w (envelope key id t) ∧ Holds s' y t := by
  obtain ⟨s0, h0, hsim⟩ := steps_sim prog Sim.init
  rw [hp] at h0; cases h0
  generalize (Store.steps (fun _ => none) prog).1 = st at hsim
  obtain ⟨a, ha, hr⟩ := hy
  obtain ⟨t', ht', hr'⟩ := hsim.get ha
  have htt : t' = t := Rep.unique _ _ _ hr' hr
  subst htt
  obtain ⟨s', h1, hs'⟩ := steps_sim (wrapping w y key id) hsim
  have hst : (Store.steps st (wrapping w y key id)) =
      (((st.set w .empty).set w (.dict (Dict.insert (bs "invocationId") (.value (.str id)) []))).set w (envelope key id t'), [none, none, none]) := by
    simp [wrapping, Store.steps, Store.step, Store.edit, Store.set, Tree.ofType, Tree.editAt, Tree.eSet, hw, Ne.symm hw, ht', envelope, Tree.asDict]
  rw [hst] at h1 hs'
  refine ⟨s', h1, ?_, ?_⟩
  · cases hw' : s'.env w with
    | none => have := (hs'.dom w).1 hw'; simp [Store.set] at this
    | some b => exact ⟨b, hw', hs'.rep w b _ hw' (by simp [Store.set])⟩
  · cases hy' : s'.env y with
    | none => have := (hs'.dom y).1 hy'; simp [Store.set, Ne.symm hw, ht'] at this
    | some b => exact ⟨b, hy', hs'.rep y b _ hy' (by simp [Store.set, Ne.symm hw, ht'])⟩

example : ∃ s s', Stmt.runAll [.decl 0 .list, .addVal 0 [] (.int 3)] Cmd.init = some (s, [none, none]) ∧
    Holds s 0 (.list [.value (.int 3)]) ∧
    Stmt.runAll (wrapping 1 0 (bs "request") (bs "id")) s = some (s', [none, none, none]) ∧
    Holds s' 1 (.dict [(bs "invocationId", .value (.str (bs "id"))), (bs "request", .list [.value (.int 3)])]) := by
  obtain ⟨s, h1, hs⟩ := steps_sim [.decl 0 .list, .addVal 0 [] (.int 3)] Sim.init
  have hst : (Store.steps (fun _ => none) [.decl 0 .list, .addVal 0 [] (.int 3)]) =
      (Store.set (Store.set (fun _ => none) 0 (.list [])) 0 (.list [.value (.int 3)]), [none, none]) := by
    simp [Store.steps, Store.step, Store.edit, Store.set, Tree.ofType, Tree.editAt, Tree.eAdd, Tree.asList]
  rw [hst] at h1 hs
  have hh : Holds s 0 (.list [.value (.int 3)]) := by
    cases h0 : s.env 0 with
    | none => have := (hs.dom 0).1 h0; simp [Store.set] at this
    | some b => exact ⟨b, h0, hs.rep 0 b _ h0 (by simp [Store.set])⟩
  obtain ⟨s', e1, e2, _⟩ := C49_wrapping_builds_envelope _ s _ h1 1 0 (by decide) (bs "request") (bs "id") _ hh
  exact ⟨s, s', h1, hh, e1, e2⟩

/-- A provider's callback runs with the envelope. -/
example : ∃ σ σ', Reachable σ ∧ exec σ [.run .go] = .to σ' ∧ σ'.bus.log.length = σ.bus.log.length + 1 ∧ σ.evs.length = 0 ∧
    σ'.evs.length = 1 ∧ (σ.provs.map (fun p => p.cb)) = [some 9] := by
  obtain ⟨σ, σ', h, he, e⟩ := play_obs2 (bs "r") (setup ++ asking (bs "1") 7 ++ thread 7) [.run .go]
    (fun σ σ' => (decide (σ'.bus.log.length = σ.bus.log.length + 1), σ.evs.length, σ'.evs.length, σ.provs.map (fun p => p.cb)))
    (true, 0, 1, [some 9]) (by decide +kernel)
  simp only [Prod.mk.injEq, decide_eq_true_eq] at e
  exact ⟨σ, σ', h, he, e⟩

/-! ## C50 -/

/-- `static_cast<std::string>(datagram["invocationId"])` throws `InvalidOperationException` exactly when the document has
no string there; otherwise it is that string. `idOf` of the model is this call. -/
theorem C50_conversion_throws_iff (s : DState) (hs : LP.Reachable s) (x : Nat) (t : Tree) (ht : Holds s x t)
    (pd : Dbl → Str) (po : Nat → Nat → Str) :
    observeAt pd po (.getVal .str) [.key (bs "invocationId")] s x =
      match idOf t with
      | some id => some (.ok (.val (.str id)))
      | none => some (.error .invalidOperation) := by
  rw [ht.observeAt hs.inv]
  simp only [Tree.editAt, Tree.eTouch, idOf]
  cases hu : Tree.subAt [.key (bs "invocationId")] t with
  | value v => cases v <;> simp [Tree.answer, Val.ty]
  | empty => simp [Tree.answer]
  | list ts => simp [Tree.answer]
  | dict ds => simp [Tree.answer]

/-- The bus thread is inside the callback `d` that is going to throw `e`, and nothing else can become of it. -/
def Doomed (σ : St) (e : Exn) : Prop := σ.cur = .doomed e ∧ blocked σ = false ∧ ∃ m st batch, σ.bus.phase = .visit m st true batch

/-- The message reaches a consumer or provider: the callback is going to throw, whatever else happens in between it
stays that way, and the only step the bus thread can then take is to leave `Run` by the exception, with the rest of the
drained messages lost. -/
theorem C50_malformed_throws (σ σ' : St) (h : Reachable σ) (a : Act) (d : Delivery) (hs : step σ a = .to σ')
    (hd : Delivers σ σ' d)
    (hsub : (∃ (c : Nat) (x : Cons), σ.cons[c]? = some x ∧ d.sub = x.sub) ∨ (∃ (p : Nat) (x : Prov), σ.provs[p]? = some x ∧ d.sub = x.sub))
    (hid : idOf d.msg.dg = none) :
    σ'.evs = σ.evs ∧ Doomed σ' .invalidOperation ∧
    ∀ as τ, exec σ' as = .to τ → .run .throwing ∉ as →
      τ.cur = .doomed .invalidOperation ∧ τ.bus.log = σ'.bus.log ∧ τ.bus.phase = σ'.bus.phase ∧
      (∀ ch, ch ≠ .throwing → step τ (.run ch) = .cannot) ∧
      ∃ ρ, step τ (.run .throwing) = .to ρ ∧ ρ.bus.phase = .off ∧ ρ.evs = τ.evs ∧
        ρ.bus.fates = τ.bus.fates ++ τ.bus.phase.batch.map (fun _ => .lost) := by
  obtain ⟨ch, b, rfl, hb, hr, h3, h4, h6, rfl⟩ := deliver_step hs hd
  have hcur : (dispatch { σ with bus := b } d).cur = .doomed .invalidOperation ∧ (dispatch { σ with bus := b } d).evs = σ.evs := by
    rcases hsub with ⟨c, x, hx, hsub⟩ | ⟨p, x, hx, hsub⟩
    · have hf := (h.own.consumer h6).2 ⟨x, hx, hsub⟩
      simp only [dispatch, hf, hid, and_self]
    · have hf := (h.own.provider h6).2 ⟨x, hx, hsub⟩
      simp only [dispatch, hf, hid, and_self]
  have hbl : blocked (dispatch { σ with bus := b } d) = false := by
    obtain ⟨e1, e2, e3, e4, e5, e6, e7, e8, e9⟩ := dispatch_same { σ with bus := b } d
    unfold blocked at hb ⊢; rw [e5, e6]; exact hb
  have hph : ∃ m st batch, (dispatch { σ with bus := b } d).bus.phase = .visit m st true batch := by
    rw [(dispatch_same { σ with bus := b } d).1]
    exact inCb_visit h4
  refine ⟨hcur.2, ⟨hcur.1, hbl, hph⟩, ?_⟩
  have hreach : Reachable (dispatch { σ with bus := b } d) := h.step hs
  generalize dispatch { σ with bus := b } d = σ₁ at hcur hbl hph hreach
  intro as τ he hno
  have key : Reachable τ ∧ τ.cur = .doomed .invalidOperation ∧ τ.bus.log = σ₁.bus.log ∧ τ.bus.phase = σ₁.bus.phase := by
    have : Along (fun _ a => a ≠ .run .throwing) σ₁ as := along_mem (P := fun a => a ≠ .run .throwing) (fun a ha e => hno (e ▸ ha))
    refine exec_induct_along (P := fun τ => Reachable τ ∧ τ.cur = .doomed .invalidOperation ∧ τ.bus.log = σ₁.bus.log ∧ τ.bus.phase = σ₁.bus.phase)
      (Q := fun _ a => a ≠ .run .throwing) ?_ ⟨hreach, hcur.1, rfl, rfl⟩ this he
    rintro ρ a ρ' ⟨g1, g2, g3, g4⟩ hne hst
    obtain ⟨m, st, batch, hp⟩ := hph
    obtain ⟨k1, k2, k3⟩ := doomed_step g2 (by rw [g4, hp]; rfl) hne hst
    exact ⟨g1.step hst, k1, by rw [k2, g3], by rw [k3, g4]⟩
  obtain ⟨k0, k1, k2, k3⟩ := key
  refine ⟨k1, k2, k3, ?_, ?_⟩
  · intro ch hch
    exact doomed_only_throws k1 (by obtain ⟨m, st, batch, hp⟩ := hph; rw [k3, hp]; rfl) hch
  · obtain ⟨m, st, batch, hp⟩ := hph
    have hbl' : blocked τ = false := by
      cases hbt : blocked τ with
      | false => rfl
      | true => have := k0.calls.block hbt; rw [k1] at this; cases this
    refine ⟨endCb τ { τ.bus with phase := .off, fates := τ.bus.fates ++ batch.map (fun _ => .lost) } .throwing, ?_, ?_⟩
    · simp only [step, run, hbl', k1, k3, hp, Bus.rstep, mayEnd, endCb]
      rfl
    · obtain ⟨e1, e2, e3, e4, e5, e6, e7, e8, e9⟩ := endCb_same τ { τ.bus with phase := .off, fates := τ.bus.fates ++ batch.map (fun _ => .lost) } .throwing
      rw [e1, e7, k3, hp]
      exact ⟨rfl, rfl, rfl⟩

/-- A provider whose callback is null (constructed without one, or after `Reset`) throws `std::bad_function_call`
instead. -/
theorem C50_null_callback_throws (σ σ' : St) (h : Reachable σ) (a : Act) (d : Delivery) (hs : step σ a = .to σ')
    (hd : Delivers σ σ' d) (p : Nat) (x : Prov) (hx : σ.provs[p]? = some x) (hsub : d.sub = x.sub) (hcb : x.cb = none) (id : Str)
    (hid : idOf d.msg.dg = some id) : σ'.cur = .doomed .badFunctionCall ∧ σ'.evs = σ.evs := by
  obtain ⟨ch, b, rfl, hb, hr, h3, h4, h6, rfl⟩ := deliver_step hs hd
  have hf := (h.own.provider h6).2 ⟨x, hx, hsub⟩
  simp only [dispatch, hf, hid, hx, hcb, and_self]

/-- Anybody can publish such a datagram; here two messages are waiting when it is delivered. -/
example : ∃ σ σ', Reachable σ ∧ exec σ [.run .go] = .to σ' ∧ σ'.bus.log.length = σ.bus.log.length + 1 ∧
    σ'.bus.phase.batch.length = 2 ∧ (match σ'.cur with | .doomed .invalidOperation => true | _ => false) = true := by
  obtain ⟨σ, σ', h, he, e⟩ := play_obs2 (bs "r") (setup ++ [.bus (.publish 0 ⟨[], bs "a/request", .value (.int 3)⟩), .bus (.push 0)] ++
      asking (bs "1") 7 ++ asking (bs "2") 7 ++ thread 7) [.run .go]
    (fun σ σ' => (decide (σ'.bus.log.length = σ.bus.log.length + 1), σ'.bus.phase.batch.length,
      (match σ'.cur with | .doomed .invalidOperation => true | _ => false)))
    (true, 2, true) (by decide +kernel)
  simp only [Prod.mk.injEq, decide_eq_true_eq] at e
  exact ⟨σ, σ', h, he, e⟩

/-- A provider that was reset. -/
example : ∃ σ σ', Reachable σ ∧ exec σ [.run .go] = .to σ' ∧ σ'.bus.log.length = σ.bus.log.length + 1 ∧
    σ.provs.map (fun p => p.cb) = [none] ∧ (match σ'.cur with | .doomed .badFunctionCall => true | _ => false) = true := by
  obtain ⟨σ, σ', h, he, e⟩ := play_obs2 (bs "r") (setup ++ asking (bs "1") 7 ++ [.resetProvider 0] ++ thread 7) [.run .go]
    (fun σ σ' => (decide (σ'.bus.log.length = σ.bus.log.length + 1), σ.provs.map (fun p => p.cb),
      (match σ'.cur with | .doomed .badFunctionCall => true | _ => false)))
    (true, [none], true) (by decide +kernel)
  simp only [Prod.mk.injEq, decide_eq_true_eq] at e
  exact ⟨σ, σ', h, he, e⟩

end LP.Action
