import Verif.Lemma.BusMore
import Verif.Lemma.Transport
import Verif.Lemma.BusSub
/-!
# C36–C39, C43, C44: the hierarchy, distribution and message contents
-/
namespace LP.Bus

/-! ## C36 -/

/-- `CreateChildBus` with the empty name, with a name in use, or on a detached bus throws and changes nothing. (That the
last case reports an empty *name* is an oddity of the code, Bus.cpp:36-39.) -/
theorem C36_create_child_fails (w : World) (b : Nat) (name : Str) :
    createChildBus b [] w = .throw (.argumentNull (bs "name")) w ∧
    (∀ c, name ≠ [] → (w.bus b).children.find name = some c → createChildBus b name w = .throw (.duplicateKey name) w) ∧
    (name ≠ [] → (w.bus b).children.find name = none → (w.bus b).attached = false →
      createChildBus b name w = .throw (.argumentNull (bs "name")) w) := by
  refine ⟨rfl, ?_, ?_⟩
  · intro c hn hf; simp [createChildBus, hn, hf]
  · intro hn hf ha; simp [createChildBus, hn, hf, ha]

/-- Otherwise it returns a bus that did not exist before, is running and attached, and is found by its name; every other
lookup on every other existing bus answers as before. -/
theorem C36_create_child_succeeds (σ : St) (b : Nat) (hb : b < σ.w.nb) (name : Str) (hn : name ≠ [])
    (hf : getChildBus b name σ.w = .throw (.keyNotFound name) σ.w) (ha : (σ.w.bus b).attached = true) :
    ∃ c w', createChildBus b name σ.w = .ok c w' ∧ σ.w.nb ≤ c ∧ c < w'.nb ∧ (w'.bus c).running = true ∧ (w'.bus c).name = name ∧
      getChildBus b name w' = .ok c w' ∧
      ∀ b' name', b' < σ.w.nb → (b', name') ≠ (b, name) → (w'.bus b').children.find name' = (σ.w.bus b').children.find name' := by
  have hf' : (σ.w.bus b).children.find name = none := by
    unfold getChildBus at hf
    cases hx : (σ.w.bus b).children.find name with
    | none => rfl
    | some c => simp [hx] at hf
  have hne : ¬b = σ.w.nb := by omega
  refine ⟨σ.w.nb, _, by simp [createChildBus, hn, hf', ha]; rfl, Nat.le_refl _, ?_, ?_, ?_, ?_, ?_⟩
  · simp [World.setBus]
  · have : ¬σ.w.nb = b := by omega
    simp [World.setBus, this]
  · have : ¬σ.w.nb = b := by omega
    simp [World.setBus, this]
  · simp [getChildBus, World.setBus, Dict.find_insert_self]
  · intro b' name' hb' hne'
    simp only [World.setBus]
    split
    · subst_vars
      rw [Dict.find_insert_ne]
      intro e; exact hne' (by rw [e])
    · rw [if_neg (by omega)]

/-- Once created, a child is found under its name for ever. -/
theorem C36_lookup_stable (σ σ' : St) (as : List Act) (b c : Nat) (name : Str) (h : Reachable σ) (hb : b < σ.w.nb)
    (hc : getChildBus b name σ.w = .ok c σ.w) (he : exec σ as = some σ') : getChildBus b name σ'.w = .ok c σ'.w := by
  have h0 : (σ.w.bus b).children.find name = some c := by
    unfold getChildBus at hc
    cases hx : (σ.w.bus b).children.find name with
    | none => simp [hx] at hc
    | some d => simp [hx] at hc; rw [hc]
  have := exec_induct (P := fun τ => b < τ.w.nb ∧ (τ.w.bus b).children.find name = some c) (Q := fun _ => True)
    (fun τ a τ' hi _ hp hs => child_find_step hi hp.1 hp.2 hs) h.inv (fun _ _ => trivial) ⟨hb, h0⟩ he
  simp [getChildBus, this.2]

/-- A name that was never created on a bus is not found there: `KeyNotFoundException` with the name. -/
theorem C36_unknown_child (root : Str) (as : List Act) (σ : St) (b : Nat) (name : Str) (h : play root as = some σ)
    (hn : .createChild b name ∉ as) : getChildBus b name σ.w = .throw (.keyNotFound name) σ.w := by
  unfold play at h
  cases h0 : initial root with
  | none => simp [h0] at h
  | some σ₀ =>
    simp [h0] at h
    have hinit : (σ₀.w.bus b).children.find name = none := by
      unfold initial newRoot at h0
      split at h0 <;> simp at h0
      rename_i w hw
      split at hw <;> cases hw
      subst h0
      simp only
      split <;> rfl
    have := exec_induct (P := fun τ => (τ.w.bus b).children.find name = none) (Q := fun a => a ≠ .createChild b name)
      (fun τ a τ' hi hq hp hs => child_none_step hi hq hp hs) (inv_initial h0) (fun a hm e => hn (e ▸ hm)) hinit h
    simp [getChildBus, this]

/-- A hierarchy of three buses and a freshly created root. -/
def family : List Act := [.createChild 0 (bs "b"), .createChild 0 (bs "a"), .createChild 1 (bs "a"),
  .createSub 0 (bs "t") (some 1), .createSub 1 (bs "/**/*") (some 2), .createSub 2 (bs "t") (some 3), .createSub 2 (bs "u") (some 4),
  .createSub 3 (bs "t") (some 5), .createSub 1 (bs "t") none, .createPub 3 (bs "t")]
example : ∃ σ, Reachable σ ∧ (σ.w.bus 1).attached = true ∧ (σ.w.bus 0).children.find (bs "a") = some 2 ∧
    (σ.w.bus 1).children.find (bs "x") = none ∧ 1 < σ.w.nb := by
  obtain ⟨σ, _, h, e⟩ := play_obs (bs "r") family (fun σ => ((σ.w.bus 1).attached, (σ.w.bus 0).children.find (bs "a"),
    (σ.w.bus 1).children.find (bs "x"), σ.w.nb)) (true, some 2, none, 4) (by decide +kernel)
  simp only [Prod.mk.injEq] at e
  exact ⟨σ, h, e.1, e.2.1, e.2.2.1, by omega⟩

/-! ## C37, C38 -/

/-- Distributing a message calls exactly the subscribers with a matching topic and a callback on the buses that are
running together with all their ancestors; each of them once; bus by bus in the order `Order`, and on one bus in the
order of registration. -/
theorem C38_distribution_exact (σ : St) (h : Reachable σ) (m : BMsg) (fuel : Nat) (hf : σ.w.nb ≤ fuel) :
    ∃ calls, distribute σ.w m fuel 0 = some calls ∧
      (∀ c, c ∈ calls ↔ ∃ b, RunPath σ.w 0 b ∧ c.sub ∈ (σ.w.bus b).subs ∧ (σ.w.sub c.sub).cb = some c.cb ∧
        TopicRule (σ.w.sub c.sub).topic m.topic) ∧
      (calls.map Call.sub).Nodup := by
  have hw := h.inv.wok
  obtain ⟨l, ho, he⟩ := distribute_spec hw m fuel 0 hw.root (by omega)
  refine ⟨_, he, ?_, calls_nodup hw m l (ho.nodup hw)⟩
  intro c
  rw [List.mem_flatMap]
  constructor
  · rintro ⟨b, hb, hc⟩
    exact ⟨b, (ho.mem hw b).1 hb, wanted_mem.1 hc⟩
  · rintro ⟨b, hb, hc⟩
    exact ⟨b, (ho.mem hw b).2 hb, wanted_mem.2 hc⟩

/-- The order: bus by bus, a bus before its children, children in ascending name order (`Order`), and the subscribers of
one bus in registration order. The order is the same for every message. -/
theorem C38_distribution_order (σ : St) (h : Reachable σ) :
    ∃ l, Order σ.w 0 l ∧ l.Nodup ∧ (∀ b, b ∈ l ↔ RunPath σ.w 0 b) ∧
      (∀ b, (σ.w.bus b).children.Sorted) ∧
      ∀ m fuel, σ.w.nb ≤ fuel → ∃ part : Nat → List Call, distribute σ.w m fuel 0 = some (l.flatMap part) ∧
        ∀ b, ((part b).map Call.sub).Sublist (σ.w.bus b).subs := by
  have hw := h.inv.wok
  obtain ⟨l, ho, _⟩ := distribute_spec hw ⟨[], [], .empty⟩ σ.w.nb 0 hw.root (by omega)
  refine ⟨l, ho, ho.nodup hw, fun b => ho.mem hw b, hw.sorted, ?_⟩
  intro m fuel hf
  obtain ⟨l', ho', he⟩ := distribute_spec hw m fuel 0 hw.root (by omega)
  rw [Order.unique ho' ho] at he
  exact ⟨wanted σ.w m, he, fun b => wanted_subs σ.w m b⟩

/-- The bus thread, when nothing interferes, does exactly that: from the beginning of the distribution of a message to
its end it makes the calls of `distribute`, in that order, and nothing else changes. -/
theorem C38_bus_thread_distributes (σ : St) (h : Reachable σ) (m : BMsg) (batch : List BMsg)
    (hp : σ.phase = .visit m [.want 0] false batch) (hr : (σ.w.bus 0).running = true) (fuel : Nat)
    (hf : σ.w.nb ≤ fuel) :
    ∃ calls n, distribute σ.w m fuel 0 = some calls ∧
      exec σ (List.replicate n (.run .go)) = some { σ with
        phase := .visit m [] false batch, log := σ.log ++ calls.map (fun c => ⟨c.sub, c.cb, σ.fates.length - 1, m⟩) } := by
  have hw := h.inv.wok
  obtain ⟨l, ho, he⟩ := distribute_spec hw m fuel 0 hw.root (by omega)
  obtain ⟨n, hn⟩ := alone_want hw (m := m) (batch := batch) σ.w.nb 0 hw.root (by omega) hr [] σ.log l ho
  refine ⟨_, n, he, ?_⟩
  have e0 : at' σ m [.want 0] batch σ.log = σ := by
    unfold at'; rw [← hp]
  rw [e0] at hn
  exact hn

/-- When every bus of the hierarchy is running, every subscriber with a callback and a matching topic on every bus
reachable from the root is called exactly once; which bus published the message does not matter. -/
theorem C37_reaches_whole_tree (σ : St) (h : Reachable σ) (hrun : ∀ b, b < σ.w.nb → (σ.w.bus b).running = true)
    (m : BMsg) (fuel : Nat) (hf : σ.w.nb ≤ fuel) :
    ∃ calls, distribute σ.w m fuel 0 = some calls ∧
      (∀ b s f, Anc σ.w 0 b → s ∈ (σ.w.bus b).subs → (σ.w.sub s).cb = some f → TopicRule (σ.w.sub s).topic m.topic →
        (calls.map Call.sub).count s = 1 ∧ ⟨s, f⟩ ∈ calls) ∧
      ∀ sender dg, distribute σ.w ⟨sender, m.topic, dg⟩ fuel 0 = some calls := by
  have hw := h.inv.wok
  obtain ⟨calls, h1, h2, h3⟩ := C38_distribution_exact σ h m fuel hf
  refine ⟨calls, h1, ?_, ?_⟩
  · intro b s f hb hs hcb ht
    have hpath : RunPath σ.w 0 b := by
      have : ∀ {a c}, Anc σ.w a c → a < σ.w.nb → RunPath σ.w a c := by
        intro a c hac ha
        induction hac with
        | refl => exact .refl (hrun _ ha)
        | step _ hc ih => exact .step ih hc (hrun _ (hc.lt hw).2)
      exact this hb hw.root
    have hmem : (⟨s, f⟩ : Call) ∈ calls := (h2 ⟨s, f⟩).2 ⟨b, hpath, hs, hcb, ht⟩
    have hin : s ∈ calls.map Call.sub := List.mem_map.2 ⟨_, hmem, rfl⟩
    exact ⟨by rw [h3.count, if_pos hin], hmem⟩
  · intro sender dg
    obtain ⟨l, ho, he⟩ := distribute_spec hw m fuel 0 hw.root (by omega)
    obtain ⟨l', ho', he'⟩ := distribute_spec hw ⟨sender, m.topic, dg⟩ fuel 0 hw.root (by omega)
    rw [Order.unique ho' ho] at he'
    rw [he', ← h1, he]
    rfl

/-- Three buses below the root, all running; with the bus `b` stopped its subtree is cut off. -/
example : ∃ σ, Reachable σ ∧ (∀ b, b < σ.w.nb → (σ.w.bus b).running = true) ∧
    (distribute σ.w ⟨[], bs "t", .empty⟩ 4 0).map (List.map Call.sub) = some [0, 2, 1, 4] ∧
    (distribute (stop 1 σ.w) ⟨[], bs "t", .empty⟩ 4 0).map (List.map Call.sub) = some [0, 2] := by
  obtain ⟨σ, _, h, e⟩ := play_obs (bs "r") (family ++ [.start]) (fun σ => (σ.w.nb, ((σ.w.bus 0).running && (σ.w.bus 1).running &&
    (σ.w.bus 2).running && (σ.w.bus 3).running), (distribute σ.w ⟨[], bs "t", .empty⟩ 4 0).map (List.map Call.sub) == some [0, 2, 1, 4],
    (distribute (stop 1 σ.w) ⟨[], bs "t", .empty⟩ 4 0).map (List.map Call.sub) == some [0, 2]))
    (4, true, true, true) (by decide +kernel)
  simp only [Prod.mk.injEq] at e
  obtain ⟨e0, e1, e5, e6⟩ := e
  simp only [Bool.and_eq_true] at e1
  obtain ⟨⟨⟨e1, e2⟩, e3⟩, e4⟩ := e1
  refine ⟨σ, h, ?_, by simpa using e5, by simpa using e6⟩
  intro b hb
  have : b = 0 ∨ b = 1 ∨ b = 2 ∨ b = 3 := by omega
  rcases this with rfl | rfl | rfl | rfl <;> assumption
/-- The bus thread at the beginning of a distribution. -/
example : ∃ σ m batch, Reachable σ ∧ σ.phase = .visit m [.want 0] false batch ∧ (σ.w.bus 0).running = true := by
  obtain ⟨σ, _, h, e⟩ := play_obs (bs "r") (family ++ [.pubPublish 0 .empty, .push 0, .start] ++ List.replicate 5 (.run .go))
    (fun σ => ((match σ.phase with | .visit _ [.want 0] false _ => true | _ => false), (σ.w.bus 0).running)) (true, true)
    (by decide +kernel)
  simp only [Prod.mk.injEq] at e
  have e1 := e.1
  split at e1
  · rename_i hp; exact ⟨σ, _, _, h, hp, e.2⟩
  · cases e1

/-! ## C39 -/

/-- What `Publisher::Publish` sends: the publisher's topic, the name of its bus, the datagram given; the topic and the
bus are those the publisher was created with, whatever happened since. -/
theorem C39_message_fields (σ τ σ' : St) (as : List Act) (b : Nat) (topic : Str) (h : Reachable σ)
    (hc : step σ (.createPub b topic) = some τ) (he : exec τ as = some σ') (d : Tree) (ρ : St)
    (hp : step σ' (.pubPublish σ.w.np d) = some ρ) :
    ρ.inflight = σ'.inflight ∨ ρ.inflight = σ'.inflight ++ [⟨(σ.w.bus b).name, topic, d⟩] := by
  have hi := h.inv
  have h0 : b < τ.w.nb ∧ σ.w.np < τ.w.np ∧ (τ.w.pub σ.w.np).topic = topic ∧ (τ.w.pub σ.w.np).bus = b ∧
      (τ.w.bus b).name = (σ.w.bus b).name := by
    simp only [step] at hc
    split at hc <;> try contradiction
    rename_i hb
    cases hc
    simp only [createPublisher, outcome, World.setBus, World.setPub]
    exact ⟨hb, by omega, by simp, by simp, by simp⟩
  have h1 := exec_induct (P := fun ρ => b < ρ.w.nb ∧ σ.w.np < ρ.w.np ∧ (ρ.w.pub σ.w.np).topic = topic ∧ (ρ.w.pub σ.w.np).bus = b ∧
      (ρ.w.bus b).name = (σ.w.bus b).name) (Q := fun _ => True) (fun ρ a ρ' hi' _ hp hs => by
        have h1 := pub_const_step hp.2.1 ⟨hp.2.2.1, hp.2.2.2.1⟩ hs
        have h2 := name_step hp.1 hp.2.2.2.2 hs
        exact ⟨h2.1, h1.1, h1.2.1, h1.2.2, h2.2⟩)
    (inv_step hi hc) (fun _ _ => trivial) h0 he
  simp only [step] at hp
  split at hp <;> try contradiction
  cases hp
  unfold pubPublish publishTopic publishMsg
  rw [h1.2.2.1, h1.2.2.2.1, h1.2.2.2.2]
  split
  · split
    · right; simp
    · left; simp
  · left; simp

/-- An active publisher of an attached bus does send. -/
theorem C39_message_sent (σ : St) (p : Nat) (hp : p < σ.w.np) (ha : (σ.w.pub p).active = true)
    (hb : (σ.w.bus (σ.w.pub p).bus).attached = true) (d : Tree) :
    step σ (.pubPublish p d) =
      some { σ with inflight := σ.inflight ++ [⟨(σ.w.bus (σ.w.pub p).bus).name, (σ.w.pub p).topic, d⟩] } := by
  simp [step, hp, pubPublish, ha, publishTopic, publishMsg, hb]

/-- The datagram travels by value. Let `x` be the variable passed to `Publish`, copied through any number of parameters
into the queue element `q`. Whatever is done afterwards with any variables other than `q` (by the publisher with `x` or
with parts of it, by callbacks with the datagrams they were given, including further deliveries from `q`), a copy handed
out from `q` shows the content `x` had at the time of the call. -/
theorem C39_content_as_published {s : DState} (hs : LP.Reachable s) {x q z : Nat} {t : Tree} {ys ks : List Nat}
    {prog : List Cmd} (hx : Holds s x t) (hq : s.env q = none) (hqy : q ∉ ys)
    (hprog : ∀ c ∈ prog, Confined (fun v => v ≠ q) c) (hsound : ∀ c ∈ prog, c.Sound) :
    ∃ s1 s2 s3, Cmd.runAll (hops x (ys ++ [q])) s = some s1 ∧ Cmd.runAll prog s1 = some s2 ∧
      Cmd.runAll (hops q (ks ++ [z])) s2 = some s3 ∧ Holds s2 q t ∧ Holds s3 z t := by
  obtain ⟨s1, s2, h1, h2, hs2, hh⟩ := hops_keep hs hx hq hqy hprog hsound
  obtain ⟨s3, h3, _, hh3, _⟩ := hops_holds (ks ++ [z]) hs2 hh
  refine ⟨s1, s2, s3, h1, h2, h3, hh, ?_⟩
  have : lastVar q (ks ++ [z]) = z := by unfold lastVar; simp
  rw [this] at hh3; exact hh3

example : ∃ σ τ σ' ρ, Reachable σ ∧ step σ (.createPub 1 (bs "v")) = some τ ∧
    exec τ [.stop 1, .createPub 0 (bs "w")] = some σ' ∧ step σ' (.pubPublish σ.w.np .empty) = some ρ ∧ ρ.inflight.length = 1 := by
  obtain ⟨σ, σ', _, h, he, e⟩ := play_obs2 (bs "r") family [.createPub 1 (bs "v"), .stop 1, .createPub 0 (bs "w")]
    (fun σ σ' => (step σ' (.pubPublish σ.w.np .empty)).map (fun ρ => ρ.inflight.length)) (some 1) (by decide +kernel)
  have he' : exec σ ([.createPub 1 (bs "v")] ++ [.stop 1, .createPub 0 (bs "w")]) = some σ' := he
  rw [exec_append] at he'
  simp only [exec] at he'
  cases hs : step σ (.createPub 1 (bs "v")) with
  | none => simp [hs] at he'
  | some τ =>
    simp only [hs, Option.bind_some] at he'
    cases hr : step σ' (.pubPublish σ.w.np .empty) with
    | none => simp [hr] at e
    | some ρ => simp [hr] at e; exact ⟨σ, τ, σ', ρ, h, hs, he', hr, e⟩

-- variable 0 is published through two parameters into 9; then 0 and a handle into it are changed, one subscriber gets 10
-- and overwrites it, and another subscriber gets 12
example : ∃ s t s1 s2 s3, LP.Reachable s ∧ Holds s 0 t ∧ Cmd.runAll (hops 0 ([7, 8] ++ [9])) s = some s1 ∧
    Cmd.runAll [.assignVal 1 (.int 6), .clear 0, .copyCtor 10 9, .assignVal 10 (.bool true)] s1 = some s2 ∧
    Cmd.runAll (hops 9 ([11] ++ [12])) s2 = some s3 ∧ Holds s3 12 t ∧ ¬ Holds s3 0 t := by
  obtain ⟨s, hr, hx, e1⟩ : ∃ s, Cmd.runAll [.make 0 .empty, .indexKey 1 0 (bs "k"), .assignVal 1 (.int 5)] Cmd.init = some s ∧
      Holds s 0 (.dict [(bs "k", .value (.int 5))]) ∧ s.env 9 = none := by
    refine ⟨_, rfl, ⟨0, rfl, ?_⟩, rfl⟩
    refine ⟨by decide, _, rfl, ?_, 1, _, rfl, ⟨by decide, rfl⟩, rfl⟩
    unfold Dict.Sorted; decide
  obtain ⟨s1, s2, s3, h1, h2, h3, h4, h5⟩ := C39_content_as_published (ys := [7, 8]) (ks := [11]) (z := 12)
    (prog := [.assignVal 1 (.int 6), .clear 0, .copyCtor 10 9, .assignVal 10 (.bool true)]) ⟨_, hr⟩ hx e1 (by decide) (by
      intro c hc; simp only [List.mem_cons, List.not_mem_nil, or_false] at hc
      rcases hc with rfl | rfl | rfl | rfl <;> constructor <;> simp [Cmd.writes, Cmd.binds]) (by simp [Cmd.Sound])
  refine ⟨s, _, s1, s2, s3, ⟨_, hr⟩, hx, h1, h2, h3, h5, ?_⟩
  intro hbad
  have hval : ((((Cmd.runAll [.make 0 .empty, .indexKey 1 0 (bs "k"), .assignVal 1 (.int 5)] Cmd.init).bind
      (Cmd.runAll (hops 0 ([7, 8] ++ [9])))).bind (Cmd.runAll [.assignVal 1 (.int 6), .clear 0, .copyCtor 10 9, .assignVal 10 (.bool true)])).bind
      (Cmd.runAll (hops 9 ([11] ++ [12])))).map (fun s => (s.env 0).map (fun a => (s.heap.node a).dict.length)) = some (some 0) := by
    decide +kernel
  rw [hr, Option.bind_some, h1, Option.bind_some, h2, Option.bind_some, h3] at hval
  obtain ⟨a, ha, _, d, hd, _, hk⟩ := hbad
  simp only [Option.map_some, ha] at hval
  rw [hd] at hval
  obtain ⟨_, _, rfl, _⟩ := hk
  simp at hval

/-! ## C43 -/

/-- `DeleteSubscriber` called on a bus where the subscriber is not registered: it stays registered where it is, without
callback. -/
theorem C43_wrong_bus_delete (w : World) (b b' s : Nat) (hs : s ∈ (w.bus b).subs) (hne : b' ≠ b) :
    ∃ w', deleteSubscriber b' (some s) w = .ok () w' ∧ containsSubscriber b (some s) w' = true ∧ (w'.sub s).cb = none ∧
      ∀ m, offer w' m s = none := by
  refine ⟨_, rfl, ?_, ?_, ?_⟩
  · have : ¬b = b' := fun e => hne e.symm
    simp [containsSubscriber, World.setBus, World.setSub, this, hs]
  · simp [World.setSub]
  · intro m; simp [offer, World.setSub]

/-- It receives nothing from then on unless a new callback is set, and is still registered unless it is deleted on its
own bus. -/
theorem C43_silent_until_new_callback (σ τ σ' : St) (as : List Act) (b b' s : Nat) (h : Reachable σ)
    (hs : s ∈ (σ.w.bus b).subs) (hne : b' ≠ b) (hd : step σ (.deleteSub b' s) = some τ) (he : exec τ as = some σ')
    (ha : ∀ f, .setCb s f ∉ as) :
    received s σ'.log = received s σ.log ∧ (.deleteSub b s ∉ as → containsSubscriber b (some s) σ'.w = true) := by
  have hi := h.inv
  have hx := step_external hi.wok (fun c e => by cases e) hd
  have h0 : (s < τ.w.ns ∧ (τ.w.sub s).cb = none) ∧ s ∈ (τ.w.bus b).subs := by
    simp only [step] at hd
    split at hd <;> try contradiction
    rename_i hb
    cases hd
    have : ¬b = b' := fun e => hne e.symm
    simp only [deleteSubscriber, outcome, World.setBus, World.setSub, this, if_false]
    exact ⟨⟨hb.2.1, by simp⟩, hs⟩
  constructor
  · have := exec_induct (P := fun ρ => (s < ρ.w.ns ∧ (ρ.w.sub s).cb = none) ∧ received s ρ.log = received s σ.log)
      (Q := fun a => ∀ f, a ≠ .setCb s f) (fun ρ a ρ' hi' hq hp hs' => mute_step hi' hq hp.1 hp.2 hs') (inv_step hi hd)
      (fun a hm f e => ha f (e ▸ hm)) ⟨h0.1, by rw [hx.log]⟩ he
    exact this.2
  · intro hdel
    have := exec_induct (P := fun ρ => s < ρ.w.ns ∧ s ∈ (ρ.w.bus b).subs) (Q := fun a => a ≠ .deleteSub b s)
      (fun ρ a ρ' hi' hq hp hs' => stays_step hi' hq hp.1 hp.2 hs') (inv_step hi hd)
      (fun a hm e => hdel (e ▸ hm)) ⟨h0.1.1, h0.2⟩ he
    simp [containsSubscriber, this.2]

/-- With a new callback it receives again. -/
example : ∃ σ τ σ', Reachable σ ∧ 0 ∈ (σ.w.bus 0).subs ∧ step σ (.deleteSub 2 0) = some τ ∧
    exec τ ([.pubPublish 0 .empty, .push 0, .start] ++ List.replicate 40 (.run .go) ++ [.setCb 0 (some 9), .pubPublish 0 .empty, .push 0] ++
      List.replicate 40 (.run .go)) = some σ' ∧ received 0 σ'.log = [1] := by
  obtain ⟨σ, σ', _, h, he, e⟩ := play_obs2 (bs "r") family
    (.deleteSub 2 0 :: ([.pubPublish 0 .empty, .push 0, .start] ++ List.replicate 40 (.run .go) ++ [.setCb 0 (some 9), .pubPublish 0 .empty, .push 0] ++
      List.replicate 40 (.run .go))) (fun σ σ' => ((σ.w.bus 0).subs.contains 0, received 0 σ'.log)) (true, [1]) (by decide +kernel)
  simp only [Prod.mk.injEq] at e
  simp only [exec] at he
  cases hs : step σ (.deleteSub 2 0) with
  | none => simp [hs] at he
  | some τ => simp only [hs] at he; exact ⟨σ, τ, σ', h, by simpa using e.1, hs, he, e.2⟩

/-! ## C44 -/

/-- The matcher accepts exactly equal strings and the one universal pattern. -/
theorem C44_topic_rule (pattern topic : Str) : antMatches pattern topic = true ↔ TopicRule pattern topic :=
  antMatches_iff pattern topic

/-- In particular no other pattern matches anything but itself, whatever wildcard characters it contains. -/
theorem C44_no_other_wildcard (pattern : Str) (h : pattern ≠ bs "/**/*") (topic : Str) :
    antMatches pattern topic = true ↔ topic = pattern := by
  rw [antMatches_iff]
  unfold TopicRule
  constructor
  · rintro (e | e)
    · exact e.symm
    · exact absurd e h
  · intro e; exact .inl e.symm

example : antMatches (bs "/**/*") (bs "a/b") = true ∧ antMatches (bs "/a/*") (bs "/a/b") = false ∧ bs "/a/*" ≠ bs "/**/*" ∧
    antMatches (bs "/**") (bs "/a") = false := by decide

end LP.Bus
