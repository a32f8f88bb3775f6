import Verif.Lemma.Link
import Verif.Prop.BusQueue
import Verif.Prop.Paths
import Verif.Lemma.Decimal
/-!
# Properties of the link plugin: C54, C55, C79, C80
-/
namespace LP.Link
open Heap

/-! ## C54 -/

/-- A message whose sender path names the link first is not sent; every other message is sent once, as the topic part and
the serialised message, on each publishing socket that is open. -/
theorem C54_callback (c : Codec) (l : St) {h : Heap} {m : Msg} {t : Tree} (hm : Rep h (fun x => x < h.next) t m.dg) :
    (FromLink l.ident m.sender → ∀ room, onMessage c room l m h = .ok [] h) ∧
    (¬ FromLink l.ident m.sender → ∃ f, m.serialize h = .ok f h ∧ ∃ out, onMessage c true l m h = .ok out h ∧
      ∀ role, out.filter (fun x => x.1 = role) = if Enabled l role then [(role, [bs "A", c.enc f])] else []) := by
  have hw : m.wasSentBySender l.ident = true ↔ FromLink l.ident m.sender := by
    simp only [Msg.wasSentBySender, beq_iff_eq, take_eq_iff, FromLink, List.append_assoc, List.singleton_append]
  refine ⟨fun hf room => by simp [onMessage, hw.mpr hf], fun hf => ?_⟩
  have hn : m.wasSentBySender l.ident = false := by
    cases hb : m.wasSentBySender l.ident with
    | true => exact absurd (hw.mp hb) hf
    | false => rfl
  obtain ⟨f, _, _, e1, _⟩ := C17_message_round_trip hm h
  refine ⟨f, e1, (if l.serverPub then [(Role.server, [bs "A", c.enc f])] else []) ++ (if l.clientPub then [(Role.client, [bs "A", c.enc f])] else []), ?_, ?_⟩
  · cases hs : l.serverPub <;> cases hc : l.clientPub <;> simp [onMessage, hn, hs, hc, sendZmqMessage, e1]
  · intro role
    cases role <;> cases hs : l.serverPub <;> cases hc : l.clientPub <;> simp [Enabled, hs, hc]

/-- Whatever one iteration of the worker publishes on the bus is never sent out again by the link. -/
theorem C54_no_echo (c : Codec) (l : St) (server client : List Part) (s s' : Memory) (ps : List Msg) (r1 r2 : List Part)
    (he : iteration c l server client s = .ok (ps, r1, r2) s') :
    ∀ p ∈ ps, ∀ (c' : Codec) room h, onMessage c' room l p h = .ok [] h := by
  have key : ∀ {o w r s ps r' rest s'}, poll c l o w r s = .ok (ps, r', rest) s' → ∀ p ∈ ps, p.wasSentBySender l.ident = true := by
    intro o w r s ps r' rest s' h
    simp only [poll] at h
    split at h
    · simp only [M.bind_run] at h
      cases hr : receiveMessage c o w r s with
      | ok a s1 =>
        obtain ⟨ok, r1, rest1⟩ := a
        rw [hr] at h
        simp only at h
        cases ok with
        | true =>
          simp only [if_true, onHeap, Msg.copy, M.bind_run] at h
          cases hc : Datagram.copyCtor (r1.prependSender l.ident).dg s1.heap with
          | ok d h2 =>
            rw [hc] at h
            simp only [M.pure_run, Res.ok.injEq, Prod.mk.injEq] at h
            obtain ⟨⟨h1, h2, h3⟩, h4⟩ := h
            subst h1
            intro p hp
            simp only [List.mem_singleton] at hp
            subst hp
            exact (C24_push_pop l.ident r1).1
          | throw e h2 => rw [hc] at h; cases h
          | ub => rw [hc] at h; cases h
          | fuel => rw [hc] at h; cases h
        | false =>
          simp only [Bool.false_eq_true, if_false, M.pure_run, Res.ok.injEq, Prod.mk.injEq] at h
          rw [← h.1.1]; simp
      | throw e s1 => rw [hr] at h; cases h
      | ub => rw [hr] at h; cases h
      | fuel => rw [hr] at h; cases h
    · simp only [M.pure_run, Res.ok.injEq, Prod.mk.injEq] at h
      rw [← h.1.1]; simp
  simp only [iteration, M.bind_run, onHeap, alloc_run] at he
  cases h1 : poll c l l.serverSub server ⟨[], [], s.heap.next⟩ ⟨{ (s.heap.put s.heap.next Node.empty) with next := s.heap.next + 1 }, s.mem⟩ with
  | ok a s1 =>
    obtain ⟨p1, q1, w1⟩ := a
    rw [h1] at he
    simp only at he
    cases h2 : poll c l l.clientSub client q1 s1 with
    | ok a s2 =>
      obtain ⟨p2, q2, w2⟩ := a
      rw [h2] at he
      simp only [M.pure_run, Res.ok.injEq, Prod.mk.injEq] at he
      obtain ⟨⟨h3, _, _⟩, _⟩ := he
      subst h3
      intro p hp c' room h
      have : p.wasSentBySender l.ident = true := by
        rcases List.mem_append.mp hp with hp | hp
        · exact key h1 p hp
        · exact key h2 p hp
      simp [onMessage, this]
    | throw e s1 => rw [h2] at he; cases he
    | ub => rw [h2] at he; cases he
    | fuel => rw [h2] at he; cases he
  | throw e s1 => rw [h1] at he; cases he
  | ub => rw [h1] at he; cases he
  | fuel => rw [h1] at he; cases he

/-- What the link sends on one role's socket: one copy for every call of the callback of its subscriber `s`, from the
message numbered `k` on. -/
def outbox (l : St) (role : Role) (s k : Nat) (log : List Bus.Delivery) : List Bus.BMsg :=
  (log.filter (fun d => d.sub = s ∧ k ≤ d.idx)).flatMap (fun d => ((sends l d.msg.sender).filter (· = role)).map (fun _ => d.msg))

theorem sends_role (l : St) (role : Role) (sender : Str) [Decidable (FromLink l.ident sender)] :
    (sends l sender).filter (· = role) = if FromLink l.ident sender then [] else if Enabled l role then [role] else [] := by
  have hw : (sender.take (l.ident.length + 1) == l.ident ++ bs "/") = true ↔ FromLink l.ident sender := by
    simp only [beq_iff_eq, take_eq_iff, FromLink, List.append_assoc, List.singleton_append]
  unfold sends
  by_cases h : FromLink l.ident sender
  · rw [if_pos (hw.mpr h), if_pos h]; rfl
  · rw [if_neg (fun k => h (hw.mp k)), if_neg h]
    cases role <;> cases hs : l.serverPub <;> cases hc : l.clientPub <;> simp [Enabled, hs, hc]

theorem msgs_of_indices {published : List Bus.BMsg} : ∀ (log : List Bus.Delivery) (k : Nat), k + log.length = published.length →
    (∀ d ∈ log, published[d.idx]? = some d.msg) → log.map Bus.Delivery.idx = List.range' k log.length →
    log.map Bus.Delivery.msg = published.drop k
  | [], k, h, _, _ => by simp at h; simp [h]
  | d :: log, k, h, hm, hi => by
    simp only [List.map_cons, List.length_cons, List.range'_succ, List.cons.injEq] at hi
    have h1 := hm d (by simp)
    rw [hi.1] at h1
    obtain ⟨hk, h1⟩ := List.getElem?_eq_some_iff.mp h1
    rw [List.drop_eq_getElem_cons hk, h1, List.map_cons,
      msgs_of_indices log (k + 1) (by simp at h; omega) (fun e he => hm e (List.mem_cons_of_mem _ he)) hi.2]

theorem exec_stays {σ σ' : Bus.St} {as : List Bus.Act} {s : Nat} (hi : Bus.Inv σ) (hs : s < σ.w.ns) (he : Bus.exec σ as = some σ') :
    σ.published.length ≤ σ'.published.length ∧ s < σ'.w.ns ∧ (σ'.w.sub s).topic = (σ.w.sub s).topic := by
  refine Bus.exec_induct (P := fun τ => σ.published.length ≤ τ.published.length ∧ s < τ.w.ns ∧ (τ.w.sub s).topic = (σ.w.sub s).topic)
    (Q := fun _ => True) ?_ hi (fun _ _ => trivial) ⟨Nat.le_refl _, hs, rfl⟩ he
  intro τ a τ' hi' _ ⟨h1, h2, h3⟩ hst
  by_cases hr : ∃ c, a = .run c
  · obtain ⟨c, rfl⟩ := hr
    obtain ⟨_, _, e1, e2, _, e3, _⟩ := Bus.run_world hst
    rw [e1, e2, e3]; exact ⟨h1, h2, h3⟩
  · have hx := Bus.step_external hi'.wok (fun c e => hr ⟨c, e⟩) hst
    obtain ⟨ms, e1, _⟩ := hx.queue
    exact ⟨by rw [e1, List.length_append]; omega, Nat.lt_of_lt_of_le h2 hx.grows.2.1, by rw [(hx.grows.2.2.2 s h2).2, h3]⟩

open Classical in
/-- Over every execution of the node's bus: while the link's wildcard subscriber stays registered, exactly the messages that
did not come in through the link are sent, once per open publishing socket, in the order of publication. -/
theorem C54_everything_else_sent_once (l : St) (role : Role) (σ σ' : Bus.St) (as : List Bus.Act) (s : Nat) (h : Bus.Reachable σ)
    (hs : s < σ.w.ns) (ht : (σ.w.sub s).topic = everything)
    (hl : Bus.Throughout (fun τ => Bus.Live τ.w s) σ as) (hc : .run .throwing ∉ as) (he : Bus.exec σ as = some σ') (hidle : Bus.Idle σ') :
    outbox l role s σ.fates.length σ'.log =
      if Enabled l role then (σ'.published.drop σ.fates.length).filter (fun m => ¬ FromLink l.ident m.sender) else [] := by
  have h1 := Bus.C29_stable_subscriber_receives_all σ σ' as s h hs hl hc he hidle
  have hr' : Bus.Reachable σ' := h.exec he
  obtain ⟨hle, _, ht'⟩ := exec_stays h.inv hs he
  rw [ht] at ht'
  have hle : σ.fates.length ≤ σ'.published.length := Nat.le_trans h.inv.len hle
  have hdue : Bus.due (σ'.w.sub s).topic σ'.published σ.fates.length σ'.published.length =
      List.range' σ.fates.length (σ'.published.length - σ.fates.length) := by
    unfold Bus.due
    rw [List.filter_eq_self]
    intro i hi
    simp only [List.mem_range'_1] at hi
    have : i < σ'.published.length := by omega
    rw [List.getElem?_eq_getElem this]
    simp [Bus.TopicRule, ht', everything]
  rw [hdue] at h1
  have hlog : (σ'.log.filter (fun d => d.sub = s ∧ σ.fates.length ≤ d.idx)).map Bus.Delivery.idx =
      List.range' σ.fates.length (σ'.published.length - σ.fates.length) := by
    rw [← h1, Bus.received, List.filter_map, List.filter_filter]
    congr 1
    refine List.filter_congr (fun d _ => ?_)
    simp [Bool.and_comm]
  have hlen : (σ'.log.filter (fun d => d.sub = s ∧ σ.fates.length ≤ d.idx)).length = σ'.published.length - σ.fates.length := by
    have := congrArg List.length hlog
    simpa using this
  have hmsgs := msgs_of_indices (published := σ'.published) (σ'.log.filter (fun d => d.sub = s ∧ σ.fates.length ≤ d.idx)) σ.fates.length
    (by rw [hlen]; omega) (fun d hd => (Bus.C30_no_spurious_delivery σ' hr' d (List.mem_filter.mp hd).1).2.1) (by rw [hlen]; exact hlog)
  unfold outbox
  rw [← hmsgs]
  generalize σ'.log.filter (fun d => d.sub = s ∧ σ.fates.length ≤ d.idx) = ds
  induction ds with
  | nil => simp
  | cons d ds ih =>
    rw [List.flatMap_cons, ih, sends_role]
    by_cases hf : FromLink l.ident d.msg.sender <;> cases hr : Enabled l role <;> simp [hf]

/-! ## C55 -/

/-- What one link sends for a message is received by the peer, however the payload is split into parts, as one message with
the same sender and topic and the document the serialisation of datagrams preserves; the message variable is the only
existing datagram that changes; no byte array is left behind; nothing else that waits is touched. -/
theorem C55_round_trip (c : Codec) {h : Heap} {m : Msg} {t : Tree} (hm : Rep h (fun x => x < h.next) t m.dg) :
    ∃ f, m.serialize h = .ok f h ∧ sendZmqMessage c true m h = .ok [bs "A", c.enc f] h ∧
      (c.dec (c.enc f) = some f → c.enc f ≠ [] → ∀ (first : List UInt8) (ps : List (List UInt8)), ps.flatten = c.enc f →
        ∀ (rest : List Part) (r : Msg) (s : Memory), r.dg < s.heap.next →
        ∃ s', receiveMessage c true (parts (first :: ps) ++ rest) r s = .ok (true, ⟨m.sender, m.topic, r.dg⟩, rest) s' ∧
          Rep s'.heap (fun x => x < s'.heap.next) t.wire r.dg ∧ (∀ x, x < s.heap.next → x ≠ r.dg → s'.heap.node x = s.heap.node x) ∧
          Clean s.mem s'.mem) := by
  have hd := Rep.depth_next hm
  obtain ⟨f, e1, nb, hf⟩ := serialize_main t (h.next + 1) m.dg (by omega) hm
  have e2 : m.serialize h = .ok ⟨some m.sender, some m.topic, some f⟩ h := by
    simp [Msg.serialize, Datagram.serialize, e1]
  refine ⟨⟨some m.sender, some m.topic, some f⟩, e2, by simp [sendZmqMessage, e2], ?_⟩
  intro hc hne first ps hp rest r s hr
  have hb : Brings c (first :: ps) (some ⟨m.sender, m.topic, t.wire⟩) := .message (by rw [hp]; exact hne) (by rw [hp]; exact hc) hf
  obtain ⟨s', hcl, hn, hk, _, h1⟩ := receive_run hb rest r s hr
  obtain ⟨e3, hrep⟩ := h1 _ rfl
  exact ⟨s', e3, Rep.mono (fun y hy => by rcases hy with rfl | hy <;> omega) (fun _ _ => rfl) _ _ hrep, hk, hcl⟩

/-- The worker works off whatever waits on the two subscribing sockets, one message of each in turn: every ZMQ message with
a payload is published exactly once, with the link's identifier in front of the sender path; those without a payload are
ignored; in the end nothing waits, no byte array is left, and no existing datagram has changed. -/
theorem C55_worker (c : Codec) (l : St) (hl : l.context = true) (n : Nat) (qs ks : List (List (List UInt8)))
    (xs ys : List (Option Content)) (hx : AllBring c qs xs) (hy : AllBring c ks ys) (hq : l.serverSub = true ∨ qs = [])
    (hk : l.clientSub = true ∨ ks = []) (hn : qs.length ≤ n) (hn' : ks.length ≤ n) (s : Memory) :
    ∃ ps s', iterations c l n (stream qs) (stream ks) s = .ok (ps, [], []) s' ∧ Clean s.mem s'.mem ∧ Untouched s.heap s'.heap ∧
      AllCarry s'.heap l.ident ps ((turns xs ys).filterMap id) :=
  iterations_run hl n hx hy hq hk hn hn' s

/-- Nothing is verified: a payload that cannot be read as a message is undefined behaviour as soon as its turn comes. -/
theorem C55_unreadable (c : Codec) (l : St) (hl : l.context = true) (hs : l.serverSub = true) (q : List (List UInt8)) (hq : Unreadable c q)
    (rest client : List Part) (s : Memory) : iteration c l (parts q ++ rest) client s = .ub := by
  simp only [iteration, M.bind_run, onHeap, alloc_run, poll, hl, hs, if_true, receive_unreadable hq]

/-! ## C79 -/

theorem flag_at (t : Tree) (ks : List Str) (d : Bool) : flag ((t.valueAt .bool ks).getD (.bool d)) = boolAt t ks d := by
  unfold Tree.valueAt boolAt
  cases t.walk ks with
  | none => rfl
  | some u => cases u with
    | value v => cases v <;> rfl
    | _ => rfl
theorem number_at (t : Tree) (ks : List Str) (d : Int32) : number ((t.valueAt .int ks).getD (.int d)) = intAt t ks d := by
  unfold Tree.valueAt intAt
  cases t.walk ks with
  | none => rfl
  | some u => cases u with
    | value v => cases v <;> rfl
    | _ => rfl
theorem text_at (t : Tree) (ks : List Str) (d : Str) : text ((t.valueAt .str ks).getD (.str d)) = strAt t ks d := by
  unfold Tree.valueAt strAt
  cases t.walk ks with
  | none => rfl
  | some u => cases u with
    | value v => cases v <;> rfl
    | _ => rfl

/-- Which sockets a link opens, in which order and with which addresses, for every configuration document: a role that is
not enabled by a Boolean `true` opens nothing; missing or wrongly typed settings have the documented defaults. The
configuration is only read. -/
theorem C79_sockets {h : Heap} {cfg : Nat} {t : Tree} (ht : Rep h (fun x => x < h.next) t cfg) (ident : Str) (ctx : Bool)
    (made : Role → Bool → Bool) :
    let server := boolAt t [bs "server-role", bs "enabled"] false
    let client := boolAt t [bs "client-role", bs "enabled"] false
    let at' (host : Str) (port : Int32) : Str := bs "tcp://" ++ host ++ bs ":" ++ intToStr port.toInt
    let host := strAt t [bs "server-role", bs "interface"] (bs "*")
    let peer := strAt t [bs "client-role", bs "server-host"] (bs "127.0.0.1")
    setUp cfg ctx made (create ident) h = .ok
      (⟨ident, ctx, server && (ctx && made .server true), server && (ctx && made .server false),
        client && (ctx && made .client true), client && (ctx && made .client false)⟩,
       [.context] ++
       (if server then
          [.socket .server true, .bind .server true (at' host (intAt t [bs "server-role", bs "port-pub"] 6967)),
           .socket .server false, .bind .server false (at' host (intAt t [bs "server-role", bs "port-sub"] 6968)),
           .subscribe .server (bs "A")] else []) ++
       (if client then
          [.socket .client true, .connect .client true (at' peer (intAt t [bs "client-role", bs "port-pub"] 6968)),
           .socket .client false, .connect .client false (at' peer (intAt t [bs "client-role", bs "port-sub"] 6967)),
           .subscribe .client (bs "A")] else [])) h := by
  have hp : ∀ ty p d, Datagram.pathGet cfg ty p d h = .ok ((t.valueAt ty (Tree.components p)).getD d) h :=
    fun ty p d => pathGet_rep ty d _ p cfg t (Nat.lt_succ_self _) ht
  have c1 : Tree.components (bs "server-role/enabled") = [bs "server-role", bs "enabled"] := by decide
  have c2 : Tree.components (bs "server-role/port-pub") = [bs "server-role", bs "port-pub"] := by decide
  have c3 : Tree.components (bs "server-role/port-sub") = [bs "server-role", bs "port-sub"] := by decide
  have c4 : Tree.components (bs "server-role/interface") = [bs "server-role", bs "interface"] := by decide
  have c5 : Tree.components (bs "client-role/enabled") = [bs "client-role", bs "enabled"] := by decide
  have c6 : Tree.components (bs "client-role/port-pub") = [bs "client-role", bs "port-pub"] := by decide
  have c7 : Tree.components (bs "client-role/port-sub") = [bs "client-role", bs "port-sub"] := by decide
  have c8 : Tree.components (bs "client-role/server-host") = [bs "client-role", bs "server-host"] := by decide
  intro server client at' host peer
  simp only [setUp, M.bind_run, hp, c1, c2, c3, c4, c5, c6, c7, c8, flag_at, number_at, text_at, M.pure_run, endpoint, create]
  simp only [server, client, host, peer, at']
  cases boolAt t [bs "server-role", bs "enabled"] false <;> cases boolAt t [bs "client-role", bs "enabled"] false <;> rfl

/-! ## C80 -/

/-- Which pointer is not null. -/
def St.isOpen (l : St) : Role → Bool → Bool
  | .server, true => l.serverPub
  | .server, false => l.serverSub
  | .client, true => l.clientPub
  | .client, false => l.clientSub

/-- Deinitialisation after any initialisation closes every socket that was opened, exactly once, before the context is
terminated (which would block otherwise), and leaves no pointer behind. -/
theorem C80_shut_down {h h' : Heap} {cfg : Nat} {t : Tree} (ht : Rep h (fun x => x < h.next) t cfg) {ident : Str} {ctx : Bool}
    {made : Role → Bool → Bool} {l : St} {calls : List Zmq} (hs : setUp cfg ctx made (create ident) h = .ok (l, calls) h') :
    (shutDown l).1 = create ident ∧
    (ctx = false → (shutDown l).2 = [] ∧ ∀ role pub, l.isOpen role pub = false) ∧
    (ctx = true → ∃ closes, (shutDown l).2 = closes ++ [.shutdown, .term] ∧ closes.Nodup ∧
      (∀ role pub, .close role pub ∈ closes ↔ l.isOpen role pub = true) ∧ ∀ z ∈ closes, ∃ role pub, z = .close role pub) ∧
    ∀ role pub, l.isOpen role pub = true ↔ ctx = true ∧ made role pub = true ∧ .socket role pub ∈ calls := by
  rw [C79_sockets ht] at hs
  simp only [Res.ok.injEq, Prod.mk.injEq] at hs
  obtain ⟨⟨rfl, rfl⟩, _⟩ := hs
  have hcl : ∀ (b : Bool) (z w : Zmq), z ∈ (if b then [w] else []) ↔ b = true ∧ z = w := by intro b z w; cases b <;> simp
  refine ⟨?_, ?_, ?_, ?_⟩
  · cases ctx <;> simp [shutDown, create]
  · rintro rfl; refine ⟨rfl, fun role pub => ?_⟩; cases role <;> cases pub <;> simp [St.isOpen]
  · rintro rfl
    refine ⟨_, rfl, ?_, ?_, ?_⟩
    · simp only [Bool.true_and]
      generalize (boolAt t [bs "server-role", bs "enabled"] false && made .server true) = b1
      generalize (boolAt t [bs "server-role", bs "enabled"] false && made .server false) = b2
      generalize (boolAt t [bs "client-role", bs "enabled"] false && made .client true) = b3
      generalize (boolAt t [bs "client-role", bs "enabled"] false && made .client false) = b4
      revert b1 b2 b3 b4; decide
    · intro role pub
      simp only [List.mem_append, hcl]
      cases role <;> cases pub <;> simp [St.isOpen]
    · intro z hz
      simp only [List.mem_append, hcl] at hz
      rcases hz with ((⟨_, rfl⟩ | ⟨_, rfl⟩) | ⟨_, rfl⟩) | ⟨_, rfl⟩ <;> exact ⟨_, _, rfl⟩
  · intro role pub
    cases role <;> cases pub <;> cases boolAt t [bs "server-role", bs "enabled"] false <;>
      cases boolAt t [bs "client-role", bs "enabled"] false <;> simp [St.isOpen]

/-! ## Cases that meet the hypotheses -/

namespace Ex
/-- A link with everything open. -/
def both : St := ⟨bs "Link0", true, true, true, true, true⟩
/-- A table for a message from `a` on topic `t` holding the number 7. -/
def table : FBM := ⟨some (bs "a"), some (bs "t"), some (.mk 1 1 none 7 0 false (some []) (some []) (some []))⟩
/-- A layout that knows this table and nothing else. -/
def layout : Codec := ⟨fun _ => [1, 2, 3], fun b => if b = [1, 2, 3] then some table else none⟩
/-- The message of the table. -/
def seven : Content := ⟨bs "a", bs "t", .value (.int 7)⟩
/-- The message split into two parts behind the topic part, then a message without payload. -/
def queue : List (List (List UInt8)) := [[[65], [1], [2, 3]], [[65]]]
theorem queue_brings : AllBring layout queue [some seven, none] :=
  .cons (.message (by decide) rfl .int) (.cons (.nothing rfl) .nil)
/-- An empty process. -/
def blank : Memory := ⟨⟨0, fun _ => Node.empty⟩, ⟨0, fun _ => .freed⟩⟩
/-- A configuration that enables the client role and sets one port. -/
def config : Heap := ⟨4, fun a => if a = 0 then ⟨.dict, [(bs "client-role", some 1)], [], none⟩
  else if a = 1 then ⟨.dict, [(bs "enabled", some 2), (bs "port-pub", some 3)], [], none⟩
  else if a = 2 then ⟨.value, [], [], some (.bool true)⟩ else ⟨.value, [], [], some (.int 99)⟩⟩
/-- What it denotes. -/
def configTree : Tree := .dict [(bs "client-role", .dict [(bs "enabled", .value (.bool true)), (bs "port-pub", .value (.int 99))])]
theorem config_rep : Rep config (fun x => x < config.next) configTree 0 := by
  refine ⟨by decide, _, rfl, by unfold Dict.Sorted; decide, 1, _, rfl, ⟨by decide, _, rfl, by unfold Dict.Sorted; decide, 2, _, rfl, ⟨by decide, rfl⟩,
    3, _, rfl, ⟨by decide, rfl⟩, rfl⟩, rfl⟩
/-- A publication of a message that came in through the link. -/
def relayed : List Bus.Act := [.publish 1 ⟨bs "Link0/x", bs "t", .empty⟩, .push 0]
end Ex

-- a message of the node is sent on both sockets, one that came in through the link on none
example : ∃ f, (Msg.mk (bs "Link1/a") (bs "t") 2).serialize LP.Ex.shared = .ok f LP.Ex.shared ∧
    onMessage Ex.layout true Ex.both ⟨bs "Link1/a", bs "t", 2⟩ LP.Ex.shared =
      .ok [(.server, [bs "A", [1, 2, 3]]), (.client, [bs "A", [1, 2, 3]])] LP.Ex.shared ∧
    onMessage Ex.layout true Ex.both ⟨bs "Link0/a", bs "t", 2⟩ LP.Ex.shared = .ok [] LP.Ex.shared := by
  have hn : ¬ FromLink Ex.both.ident (bs "Link1/a") := by
    rintro ⟨s, h⟩
    have := congrArg (List.take 6) h
    revert this; simp [Ex.both, bs, slash]
  obtain ⟨f, e, out, e2, h⟩ := (C54_callback Ex.layout Ex.both (m := ⟨bs "Link1/a", bs "t", 2⟩) LP.Ex.shared_rep).2 hn
  refine ⟨f, e, ?_, (C54_callback Ex.layout Ex.both (m := ⟨bs "Link0/a", bs "t", 2⟩) LP.Ex.shared_rep).1 ⟨bs "a", rfl⟩ true⟩
  have hw : (Msg.mk (bs "Link1/a") (bs "t") 2).wasSentBySender Ex.both.ident = false := by decide
  have h1 : Ex.both.serverPub = true := rfl
  have h2 : Ex.both.clientPub = true := rfl
  have h3 : ∀ f, Ex.layout.enc f = [1, 2, 3] := fun _ => rfl
  simp [onMessage, hw, h1, h2, h3, sendZmqMessage, e]

set_option synthInstance.maxSize 1024
-- two messages pass while the wildcard subscriber is registered; only the one not from the link is sent
example : ∃ σ σ', Bus.Reachable σ ∧ 1 < σ.w.ns ∧ (σ.w.sub 1).topic = everything ∧
    Bus.Throughout (fun τ => Bus.Live τ.w 1) σ (Bus.publication ++ Ex.relayed ++ Bus.thread 41) ∧
    Bus.exec σ (Bus.publication ++ Ex.relayed ++ Bus.thread 41) = some σ' ∧ Bus.Idle σ' ∧ σ'.published.map Bus.BMsg.sender = [bs "c", bs "Link0/x"] ∧
    (outbox Ex.both .client 1 0 σ'.log).map Bus.BMsg.sender = [bs "c"] := by
  obtain ⟨σ, σ', _, h, he, e⟩ := Bus.play_obs2 (bs "r") (Bus.setup ++ [.start]) (Bus.publication ++ Ex.relayed ++ Bus.thread 41)
    (fun σ σ' => (decide (1 < σ.w.ns), (σ.w.sub 1).topic, Bus.passes (Bus.liveChild 1 (bs "c")) σ (Bus.publication ++ Ex.relayed ++ Bus.thread 41),
      σ'.w.queue.isEmpty, (match σ'.phase with | .asleep => true | _ => false), σ'.published.map Bus.BMsg.sender,
      (outbox Ex.both .client 1 0 σ'.log).map Bus.BMsg.sender))
    (true, everything, true, true, true, [bs "c", bs "Link0/x"], [bs "c"]) (by decide +kernel)
  simp only [Prod.mk.injEq, decide_eq_true_eq] at e
  obtain ⟨e1, e2, e3, e4, e5, e6, e7⟩ := e
  have hp : σ'.phase = .asleep := by cases hp : σ'.phase <;> simp [hp] at e5 ⊢
  exact ⟨σ, σ', h, e1, e2, Bus.passes_throughout Bus.liveChild_live e3, he,
    ⟨by simpa using e4, by rw [hp]; rfl, by rw [hp]; simp⟩, e6, e7⟩

-- a layout that round-trips the message exists, and a split payload is received
example : ∃ c f s', (Msg.mk (bs "a/b") (bs "t") 2).serialize LP.Ex.shared = .ok f LP.Ex.shared ∧ c.dec (c.enc f) = some f ∧ c.enc f ≠ [] ∧
    receiveMessage c true (parts [[65], [1], [], [2]] ++ [⟨[9], false⟩]) ⟨[], [], 0⟩ ⟨LP.Ex.two, ⟨0, fun _ => .freed⟩⟩ =
      .ok (true, ⟨bs "a/b", bs "t", 0⟩, [⟨[9], false⟩]) s' ∧ Rep s'.heap (fun x => x < s'.heap.next) LP.Ex.sharedTree 0 := by
  obtain ⟨f, _, _, e, _⟩ := C17_message_round_trip (m := ⟨bs "a/b", bs "t", 2⟩) LP.Ex.shared_rep LP.Ex.shared
  obtain ⟨f', e', _, h⟩ := C55_round_trip ⟨fun _ => [1, 2], fun b => if b = [1, 2] then some f else none⟩ (m := ⟨bs "a/b", bs "t", 2⟩) LP.Ex.shared_rep
  rw [e] at e'
  cases e'
  obtain ⟨s', h1, h2, _⟩ := h rfl (by simp) [65] [[1], [], [2]] rfl [⟨[9], false⟩] ⟨[], [], 0⟩ ⟨LP.Ex.two, ⟨0, fun _ => .freed⟩⟩ (by decide)
  exact ⟨_, f, s', e, rfl, by simp, h1, h2⟩

-- the server socket holds a message and an empty frame, the client socket the same
example : ∃ ps s', iterations Ex.layout Ex.both 2 (stream Ex.queue) (stream Ex.queue) Ex.blank = .ok (ps, [], []) s' ∧
    AllCarry s'.heap (bs "Link0") ps [Ex.seven, Ex.seven] := by
  obtain ⟨ps, s', e, _, _, h⟩ := C55_worker Ex.layout Ex.both rfl 2 Ex.queue Ex.queue _ _ Ex.queue_brings Ex.queue_brings (.inl rfl) (.inl rfl)
    (by decide) (by decide) Ex.blank
  exact ⟨ps, s', e, h⟩

-- what one iteration published is not sent again
example : ∃ p s', iteration Ex.layout Ex.both (stream Ex.queue) [] Ex.blank = .ok ([p], stream Ex.queue.tail, []) s' ∧
    onMessage Ex.layout true Ex.both p s'.heap = .ok [] s'.heap := by
  obtain ⟨ps, s', e, _, _, h⟩ := iteration_run (c := Ex.layout) (l := Ex.both) rfl Ex.queue_brings .nil (.inl rfl) (.inr rfl) Ex.blank
  match ps, h with
  | [p], _ => exact ⟨p, s', e, C54_no_echo _ _ _ _ _ _ _ _ _ e p (by simp) _ _ _⟩

example : iteration Ex.layout Ex.both (parts [[65], [7]] ++ []) [] Ex.blank = .ub :=
  C55_unreadable Ex.layout Ex.both rfl rfl _ (.bytes (by decide) rfl) [] [] Ex.blank

theorem Ex.setUp_config : setUp 0 true (fun _ _ => true) (create (bs "Link0")) Ex.config = .ok
    (⟨bs "Link0", true, false, false, true, true⟩,
     [.context, .socket .client true, .connect .client true (bs "tcp://127.0.0.1:99"), .socket .client false,
      .connect .client false (bs "tcp://127.0.0.1:6967"), .subscribe .client (bs "A")]) Ex.config := by
  have e := C79_sockets Ex.config_rep (bs "Link0") true (fun _ _ => true)
  have ht : ∀ x y : St × List Zmq, x = y → (Res.ok x Ex.config : Res Heap _) = .ok y Ex.config := fun x y h => by rw [h]
  exact e.trans (ht _ _ (by decide +kernel))

example : ∃ closes, (shutDown ⟨bs "Link0", true, false, false, true, true⟩).2 = closes ++ [.shutdown, .term] ∧
    closes = [.close .client true, .close .client false] := by
  obtain ⟨c, h, _⟩ := (C80_shut_down Ex.config_rep Ex.setUp_config).2.2.1 rfl
  exact ⟨c, h, List.append_cancel_right (h.symm.trans (by decide))⟩

end LP.Link
