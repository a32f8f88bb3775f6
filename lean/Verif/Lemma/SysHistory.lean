import Verif.Lemma.SysLife
/-!
# A SysInfo instance after a history of calls: the invariant
-/
namespace LP.SysLife
open LP.Bus (World BMsg)

theorem snoc_rec {P : List Act → Prop} (h0 : P []) (h1 : ∀ h a, P h → P (h ++ [a])) (h : List Act) : P h := by
  have : ∀ l : List Act, P l.reverse := by
    intro l
    induction l with
    | nil => exact h0
    | cons a l ih => rw [List.reverse_cons]; exact h1 _ _ ih
  simpa using this h.reverse

theorem exec_snoc (σ : St) (h : List Act) (a : Act) : exec σ (h ++ [a]) = match exec σ h with | .ub => .ub | .to τ => step τ a := by
  induction h generalizing σ with
  | nil =>
    simp only [List.nil_append, exec]
    cases step σ a <;> rfl
  | cons b h ih =>
    simp only [List.cons_append, exec]
    cases step σ b with
    | ub => rfl
    | to τ => exact ih τ

theorem safe_nil {config : Bool} : Safe config [] := by
  intro p a q e; simp at e

theorem safe_snoc {config : Bool} {h : List Act} {a : Act} : Safe config (h ++ [a]) ↔ Safe config h ∧ Allowed config h a := by
  constructor
  · intro hs
    exact ⟨fun p b q e => hs p b (q ++ [a]) (by rw [e]; simp), hs h a [] rfl⟩
  · rintro ⟨hs, ha⟩ p b q e
    rcases List.eq_nil_or_concat q with rfl | ⟨q', c, rfl⟩
    · obtain ⟨e1, e2⟩ := List.append_inj' e rfl
      injection e2 with e2
      subst e1 e2; exact ha
    · rw [List.concat_eq_append, ← List.cons_append, ← List.append_assoc] at e
      obtain ⟨e, -⟩ := List.append_inj' e rfl
      exact hs p b q' e

theorem up_nil : ¬Up [] := by
  rintro ⟨p, q, e, -⟩; simp at e

theorem up_snoc {h : List Act} {a : Act} : Up (h ++ [a]) ↔ a.isInit = true ∨ (Up h ∧ a.isInit = false ∧ a.isDeinit = false) := by
  constructor
  · rintro ⟨p, q, e, hq⟩
    rcases List.eq_nil_or_concat q with rfl | ⟨q', c, rfl⟩
    · obtain ⟨-, e2⟩ := List.append_inj' e rfl
      injection e2 with e2
      subst e2; exact .inl rfl
    · rw [List.concat_eq_append] at e hq
      rw [← List.cons_append, ← List.append_assoc] at e
      obtain ⟨e1, e2⟩ := List.append_inj' e rfl
      injection e2 with e2
      subst e2
      exact .inr ⟨⟨p, q', e1, fun x hx => hq x (List.mem_append_left _ hx)⟩, hq a (by simp)⟩
  · rintro (h1 | ⟨⟨p, q, rfl, hq⟩, ha⟩)
    · cases a <;> simp [Act.isInit] at h1
      exact ⟨h, [], rfl, by simp⟩
    · refine ⟨p, q ++ [a], by simp, fun x hx => ?_⟩
      rcases List.mem_append.1 hx with hx | hx
      · exact hq x hx
      · simp only [List.mem_singleton] at hx; subst hx; exact ha

theorem dead_snoc {h : List Act} {a : Act} : Dead (h ++ [a]) ↔ Dead h ∨ a = .destroy := by
  simp only [Dead, List.mem_append, List.mem_singleton]
  exact ⟨fun h => h.imp id Eq.symm, fun h => h.imp id Eq.symm⟩

/-- How often `Deinitialize` was called. -/
abbrev deinits (h : List Act) : Nat := h.countP Act.isDeinit

theorem count_snoc (h : List Act) (a : Act) : inits (h ++ [a]) = inits h + a.isInit.toNat ∧ deinits (h ++ [a]) = deinits h + a.isDeinit.toNat := by
  constructor <;> simp only [inits, deinits, List.countP_append, List.countP_cons, List.countP_nil, Nat.zero_add] <;> congr 1
  · cases a.isInit <;> rfl
  · cases a.isDeinit <;> rfl

/-- The publishers of a bus exist and are listed once. -/
structure Pubs (w : World) (b : Nat) : Prop where
  old : ∀ p ∈ (w.bus b).pubs, p < w.np
  once : (w.bus b).pubs.Nodup

/-- The instance after a history, on a bus with `n` publishers at first. -/
structure Inv (b n : Nat) (config : Bool) (σ : St) (h : List Act) : Prop where
  bus : σ.bus = b
  cfg : σ.config = config
  tidy : Tidy σ.world b
  pubs : Pubs σ.world b
  log : Has σ.world b 0 (bs "/sysinfo") (surplus h)
  req : Has σ.world b 1 (bs "/sysinfoaction/request") (inits h)
  more : deinits h ≤ inits h
  up : Up h → ∃ s p, σ.subscriber = some s ∧ σ.publisher = some p ∧ s ∈ (σ.world.bus b).subs ∧ (σ.world.sub s).cb = some 0 ∧
    p ∈ (σ.world.bus b).pubs ∧ σ.world.pub p = ⟨bs "/sysinfo", b, true⟩
  down : ¬Up h → σ.subscriber = none ∧ σ.publisher = none
  send : σ.send = (config && inits h != 0)
  alive : σ.alive = true ↔ ¬Dead h
  count : (σ.world.bus b).pubs.length + deinits h = n + 2 * inits h

variable {b n : Nat} {config : Bool} {σ : St} {h : List Act}

theorem inv_create {w : World} (hw : Neat w b) : Inv b (w.bus b).pubs.length config (create b config w) [] := by
  refine ⟨rfl, rfl, ⟨hw.old, hw.once⟩, ⟨hw.oldPubs, hw.oncePubs⟩, ⟨?_, ?_⟩, ⟨?_, ?_⟩, Nat.le_refl _, fun hu => absurd hu up_nil, fun _ => ⟨rfl, rfl⟩,
    by simp [create, inits], by simp [create, Dead], by simp [create, inits]⟩
  · show ((w.bus b).subs.filter _).length = _
    rw [List.filter_eq_nil_iff.2 (fun s _ => by simpa [create] using (hw.other s).1)]; rfl
  · exact fun s _ hc => absurd hc (hw.other s).1
  · show ((w.bus b).subs.filter _).length = _
    rw [List.filter_eq_nil_iff.2 (fun s _ => by simpa [create] using (hw.other s).2)]; rfl
  · exact fun s _ hc => absurd hc (hw.other s).2

/-- `Initialize` on an instance that exists. -/
theorem init_ok (H : Inv b n config σ h) (hd : ¬Dead h) : ∃ τ, step σ .init = .to τ ∧ Inv b n config τ (h ++ [.init]) ∧
    τ.logged = σ.logged ∧ τ.responded = σ.responded ∧ τ.escaped = σ.escaped := by
  have ha := H.alive.2 hd
  have hb := H.bus
  subst hb
  let w := σ.world
  let w1 : World := ({ w with np := w.np + 1 }.setPub w.np ⟨bs "/sysinfo", σ.bus, true⟩).setBus σ.bus { w.bus σ.bus with pubs := (w.bus σ.bus).pubs ++ [w.np] }
  let w2 : World := ({ w1 with ns := w1.ns + 1 }.setSub w1.ns ⟨bs "/sysinfo", some 0, σ.bus⟩).setBus σ.bus { w1.bus σ.bus with subs := (w1.bus σ.bus).subs ++ [w1.ns] }
  obtain ⟨w3, hw3⟩ : ∃ w3, provide σ.bus w2 = some w3 := ⟨_, rfl⟩
  have g1 : Stays w w1 σ.bus := ⟨rfl, by simp [w1, Bus.World.setBus, Bus.World.setPub], rfl⟩
  have g2 : Grows w1 w2 σ.bus (some 0) (bs "/sysinfo") := by
    refine ⟨rfl, by simp [w2, Bus.World.setBus, Bus.World.setSub], by simp [w2, Bus.World.setBus, Bus.World.setSub], by simp [w2, Bus.World.setBus, Bus.World.setSub], fun s hs => ?_⟩
    simp [w2, Bus.World.setBus, Bus.World.setSub, hs]
  have g3 : Grows w2 w3 σ.bus (some 1) (bs "/sysinfoaction/request") := by
    cases hw3
    refine ⟨rfl, ?_, ?_, ?_, fun s hs => ?_⟩
    · simp [Bus.setCallback, Bus.World.setBus, Bus.World.setSub, Bus.World.setPub]
    · simp [Bus.setCallback, Bus.World.setBus, Bus.World.setSub, Bus.World.setPub]
    · simp [Bus.setCallback, Bus.World.setBus, Bus.World.setSub, Bus.World.setPub]
    · simp [Bus.setCallback, Bus.World.setBus, Bus.World.setSub, Bus.World.setPub, hs]
  have p3 : (w3.bus σ.bus).pubs = (w.bus σ.bus).pubs ++ [w.np, w.np + 1] ∧ w3.np = w.np + 2 ∧ w3.pub w.np = ⟨bs "/sysinfo", σ.bus, true⟩ := by
    cases hw3
    refine ⟨?_, rfl, ?_⟩
    · simp [w1, w2, Bus.setCallback, Bus.World.setBus, Bus.World.setSub, Bus.World.setPub]
    · simp [w1, w2, Bus.setCallback, Bus.World.setBus, Bus.World.setSub, Bus.World.setPub]
  have hst : step σ .init = .to { σ with world := w3, publisher := some w.np, subscriber := some w1.ns, send := σ.config } := by
    simp only [step, ha, if_true, setUp, Bus.createPublisher, Bus.createSubscriber]
    have hw3' := hw3
    simp only [w1, w2, w] at hw3' ⊢
    rw [hw3']
  have t1 := g1.tidy H.tidy
  have t2 := g2.tidy t1
  have l3 := g3.has t2 (g2.has t1 (g1.has H.log) (fun _ => rfl)) (fun e => by cases e)
  have r3 := g3.has t2 (g2.has t1 (g1.has H.req) (fun e => by cases e)) (fun _ => rfl)
  obtain ⟨c1, c2⟩ := count_snoc h .init
  simp only [Act.isInit, Act.isDeinit, Bool.toNat_true, Bool.toNat_false] at c1 c2
  have hm := H.more
  refine ⟨_, hst, ⟨rfl, H.cfg, g3.tidy t2, ⟨?_, ?_⟩, ?_, ?_, by omega, fun _ => ?_, fun hn => ?_, ?_, ?_, ?_⟩, rfl, rfl, rfl⟩
  · intro p hp
    show p < w3.np
    have hp : p ∈ (w3.bus σ.bus).pubs := hp
    rw [p3.1] at hp
    rw [p3.2.1]
    rcases List.mem_append.1 hp with hp | hp
    · have : p < w.np := H.pubs.old p hp
      omega
    · simp at hp; omega
  · show (w3.bus σ.bus).pubs.Nodup
    rw [p3.1, List.nodup_append]
    refine ⟨H.pubs.once, by simp, fun x hx y hy => ?_⟩
    have : x < w.np := H.pubs.old x hx
    simp at hy; omega
  · have : surplus (h ++ [.init]) = surplus h + 1 := by
      show inits _ - deinits _ = inits _ - deinits _ + 1; omega
    rw [this]; simpa using l3
  · rw [c1]; simpa using r3
  · refine ⟨w1.ns, w.np, rfl, rfl, ?_, ?_, ?_, p3.2.2⟩
    · show w1.ns ∈ (w3.bus σ.bus).subs
      rw [g3.subs, g2.subs]; simp
    · show (w3.sub w1.ns).cb = some 0
      rw [g3.rest _ (by rw [g2.ns]; omega), g2.cb]
    · show w.np ∈ (w3.bus σ.bus).pubs
      rw [p3.1]; simp
  · exact absurd (up_snoc.2 (.inl rfl)) hn
  · rw [c1]
    show σ.config = _
    rw [H.cfg]; simp
  · rw [dead_snoc]; show σ.alive = true ↔ _; rw [H.alive]; simp
  · show (w3.bus σ.bus).pubs.length + _ = _
    have : (w.bus σ.bus).pubs.length + deinits h = n + 2 * inits h := H.count
    rw [p3.1, c1, c2, List.length_append]
    simp only [List.length_cons, List.length_nil]
    omega

/-- `Deinitialize` right after `Initialize`. -/
theorem deinit_ok (H : Inv b n config σ h) (hd : ¬Dead h) (hu : Up h) : ∃ τ, step σ .deinit = .to τ ∧ Inv b n config τ (h ++ [.deinit]) ∧
    τ.logged = σ.logged ∧ τ.responded = σ.responded ∧ τ.escaped = σ.escaped := by
  have ha := H.alive.2 hd
  have hb := H.bus
  subst hb
  obtain ⟨s, p, e1, e2, e3, e4, e5, e6⟩ := H.up hu
  let w := σ.world
  let w1 : World := (w.setBus σ.bus { w.bus σ.bus with subs := (w.bus σ.bus).subs.filter (fun i => i != s) }).setSub s { w.sub s with cb := none }
  let w2 : World := (w1.setBus σ.bus { w1.bus σ.bus with pubs := (w1.bus σ.bus).pubs.filter (fun i => i != p) }).setPub p { w1.pub p with active := false }
  have g1 : Shrinks w w2 σ.bus s := by
    refine ⟨rfl, by simp [w1, w2, Bus.World.setBus, Bus.World.setSub, Bus.World.setPub], by simp [w1, w2, Bus.World.setBus, Bus.World.setSub, Bus.World.setPub], fun s' hs => ?_⟩
    simp [w1, w2, Bus.World.setBus, Bus.World.setSub, Bus.World.setPub, hs]
  have p2 : (w2.bus σ.bus).pubs = (w.bus σ.bus).pubs.filter (fun i => i != p) ∧ w2.np = w.np :=
    ⟨by simp [w1, w2, Bus.World.setBus, Bus.World.setSub, Bus.World.setPub], rfl⟩
  have hst : step σ .deinit = .to { σ with world := w2, subscriber := none, publisher := none } := by
    simp only [step, ha, if_true, tearDown, e1, e2, Bus.deleteSubscriber, Bus.deletePublisher]
    rfl
  have hpos : surplus h = (surplus h - 1) + 1 := by
    have : 0 < ((σ.world.bus σ.bus).subs.filter (fun s => (σ.world.sub s).cb == some 0)).length :=
      List.length_pos_of_mem (List.mem_filter.2 ⟨e3, by simp [e4]⟩)
    rw [H.log.count] at this; omega
  have hl := H.log
  rw [hpos] at hl
  obtain ⟨c1, c2⟩ := count_snoc h .deinit
  simp only [Act.isInit, Act.isDeinit, Bool.toNat_true, Bool.toNat_false] at c1 c2
  have hs' : surplus h = inits h - deinits h := rfl
  refine ⟨_, hst, ⟨rfl, H.cfg, g1.tidy H.tidy, ⟨?_, ?_⟩, ?_, ?_, by omega, fun hu => ?_, fun _ => ⟨rfl, rfl⟩, ?_, ?_, ?_⟩, rfl, rfl, rfl⟩
  · intro q hq
    have hq : q ∈ (w2.bus σ.bus).pubs := hq
    rw [p2.1] at hq
    exact H.pubs.old q (List.mem_filter.1 hq).1
  · show (w2.bus σ.bus).pubs.Nodup
    rw [p2.1]; exact H.pubs.once.sublist List.filter_sublist
  · have : surplus (h ++ [.deinit]) = surplus h - 1 := by
      show inits _ - deinits _ = inits _ - deinits _ - 1; omega
    rw [this]
    exact g1.loses H.tidy hl e3 e4
  · rw [c1]
    exact g1.keeps H.req (by show (σ.world.sub s).cb ≠ _; rw [e4]; simp)
  · rw [up_snoc] at hu; simp [Act.isInit, Act.isDeinit] at hu
  · rw [c1]; exact H.send
  · rw [dead_snoc]; show σ.alive = true ↔ _; rw [H.alive]; simp
  · show (w2.bus σ.bus).pubs.length + _ = _
    have h1 : (w.bus σ.bus).pubs.length + deinits h = n + 2 * inits h := H.count
    have h2 : ((w.bus σ.bus).pubs.filter (fun i => i != p)) = (w.bus σ.bus).pubs.erase p := (List.Nodup.erase_eq_filter H.pubs.once p).symm
    have h3 : ((w.bus σ.bus).pubs.erase p).length = (w.bus σ.bus).pubs.length - 1 := List.length_erase_of_mem e5
    have h4 : 0 < (w.bus σ.bus).pubs.length := List.length_pos_of_mem e5
    rw [p2.1, c1, c2, h2, h3]
    omega

/-- Something that changes neither the counts nor who is there. -/
theorem Inv.other {τ : St} {a : Act} (H : Inv b n config σ h) (h1 : a.isInit = false) (h2 : a.isDeinit = false) (hb : τ.bus = σ.bus)
    (hc : τ.config = σ.config) (hs : τ.subscriber = σ.subscriber) (hp : τ.publisher = σ.publisher) (hn : τ.send = σ.send)
    (ht : Tidy τ.world b) (hl : Has τ.world b 0 (bs "/sysinfo") (surplus h)) (hr : Has τ.world b 1 (bs "/sysinfoaction/request") (inits h))
    (hk : ∀ s ∈ (σ.world.bus b).subs, (σ.world.sub s).cb = some 0 → s ∈ (τ.world.bus b).subs ∧ (τ.world.sub s).cb = some 0)
    (hpub : τ.world.pub = σ.world.pub ∧ τ.world.np = σ.world.np ∧ (τ.world.bus b).pubs = (σ.world.bus b).pubs)
    (hal : τ.alive = true ↔ ¬Dead (h ++ [a])) : Inv b n config τ (h ++ [a]) := by
  obtain ⟨c1, c2⟩ := count_snoc h a
  simp only [h1, h2, Bool.toNat_false, Nat.add_zero] at c1 c2
  have hu : Up (h ++ [a]) ↔ Up h := by rw [up_snoc]; simp [h1, h2]
  have hsur : surplus (h ++ [a]) = surplus h := by show inits _ - deinits _ = inits _ - deinits _; rw [c1, c2]
  refine ⟨hb.trans H.bus, hc.trans H.cfg, ht, ⟨?_, ?_⟩, by rw [hsur]; exact hl, by rw [c1]; exact hr, by rw [c1, c2]; exact H.more, fun hu' => ?_,
    fun hu' => ?_, by rw [hn, c1]; exact H.send, hal, ?_⟩
  · rw [hpub.2.2, hpub.2.1]; exact H.pubs.old
  · rw [hpub.2.2]; exact H.pubs.once
  · obtain ⟨s, p, e1, e2, e3, e4, e5, e6⟩ := H.up (hu.1 hu')
    exact ⟨s, p, hs.trans e1, hp.trans e2, (hk s e3 e4).1, (hk s e3 e4).2, by rw [hpub.2.2]; exact e5, by rw [hpub.1]; exact e6⟩
  · rw [hs, hp]; exact H.down (fun h => hu' (hu.2 h))
  · rw [hpub.2.2, c1, c2]; exact H.count

/-- What a message does. -/
theorem message_ok (H : Inv b n config σ h) (m : BMsg) : step σ (.message m) =
    if m.topic = bs "/sysinfo" then
      if surplus h = 0 then .to σ else match textOf m.dg with
        | some s => if σ.alive then .to { σ with logged := σ.logged ++ List.replicate (surplus h) s } else .ub
        | none => .to { σ with escaped := σ.escaped + 1 }
    else if m.topic = bs "/sysinfoaction/request" then
      if inits h = 0 then .to σ else match Action.idOf m.dg with
        | some id => if σ.alive then .to { σ with responded := σ.responded ++ List.replicate (inits h) id } else .ub
        | none => .to { σ with escaped := σ.escaped + 1 }
    else .to σ := by
  have c0 := H.log.calls (by decide) m
  have c1 := H.req.calls (by decide) m
  rw [← H.bus] at c0 c1
  simp only [step]
  by_cases e0 : m.topic = bs "/sysinfo"
  · rw [if_pos e0] at c0
    rw [if_neg (by rw [e0]; decide)] at c1
    rw [callAll_log _ _ _ c1, c0, if_pos e0]
    cases textOf m.dg <;> rfl
  · rw [if_neg e0] at c0
    rw [if_neg e0]
    by_cases e1 : m.topic = bs "/sysinfoaction/request"
    · rw [if_pos e1] at c1
      rw [callAll_respond _ _ _ c0, c1, if_pos e1]
      cases Action.idOf m.dg <;> rfl
    · rw [if_neg e1] at c1
      rw [callAll_none _ _ _ c0 c1, if_neg e1]

theorem Inv.quiet {τ : St} {a : Act} (H : Inv b n config σ h) (h1 : a.isInit = false) (h2 : a.isDeinit = false) (hb : τ.bus = σ.bus)
    (hc : τ.config = σ.config) (hs : τ.subscriber = σ.subscriber) (hp : τ.publisher = σ.publisher) (hn : τ.send = σ.send)
    (hw : τ.world = σ.world) (hal : τ.alive = true ↔ ¬Dead (h ++ [a])) : Inv b n config τ (h ++ [a]) :=
  H.other h1 h2 hb hc hs hp hn (by rw [hw]; exact H.tidy) (by rw [hw]; exact H.log) (by rw [hw]; exact H.req)
    (by rw [hw]; exact fun s h1 h2 => ⟨h1, h2⟩) (by rw [hw]; exact ⟨rfl, rfl, rfl⟩) hal

theorem textOf_some {t : Tree} : (∃ s, t = .value (.str s)) ↔ textOf t ≠ none := by
  constructor
  · rintro ⟨s, rfl⟩; simp [textOf]
  · unfold textOf
    split
    · exact fun _ => ⟨_, rfl⟩
    · exact fun h => absurd rfl h

/-- What is allowed is defined, and the invariant holds again. -/
theorem step_ok (H : Inv b n config σ h) {a : Act} (ha : Allowed config h a) : ∃ τ, step σ a = .to τ ∧ Inv b n config τ (h ++ [a]) := by
  cases a with
  | init => obtain ⟨τ, e, i, -⟩ := init_ok H ha; exact ⟨τ, e, i⟩
  | deinit => obtain ⟨τ, e, i, -⟩ := deinit_ok H ha.1 ha.2; exact ⟨τ, e, i⟩
  | beat =>
    have hal := H.alive.2 ha.1
    have hal' : σ.alive = true ↔ ¬Dead (h ++ [.beat]) := by rw [dead_snoc, H.alive]; simp
    simp only [step, hal, if_true, round]
    by_cases hs : σ.send = true
    · rw [if_pos hs]
      rw [H.send, Bool.and_eq_true] at hs
      have hu : Up h := (ha.2 hs.1).resolve_left (by simpa using hs.2)
      obtain ⟨s, p, e1, e2, -⟩ := H.up hu
      rw [e2]
      simp only
      cases hp : Bus.pubPublish p (.value (.str (bs "Hello Bus!"))) σ.world with
      | none => exact ⟨σ, rfl, H.quiet rfl rfl rfl rfl rfl rfl rfl rfl hal'⟩
      | some m =>
        exact ⟨_, rfl, H.other rfl rfl rfl rfl rfl e2.symm rfl ⟨H.tidy.old, H.tidy.once⟩ ⟨H.log.count, H.log.topic⟩ ⟨H.req.count, H.req.topic⟩
          (fun s h1 h2 => ⟨h1, h2⟩) ⟨rfl, rfl, rfl⟩ (hal ▸ hal')⟩
    · rw [if_neg hs]
      exact ⟨σ, rfl, H.quiet rfl rfl rfl rfl rfl rfl rfl rfl hal'⟩
  | destroy =>
    have hal := H.alive.2 ha
    simp only [step, hal, if_true]
    exact ⟨_, rfl, H.quiet rfl rfl rfl rfl rfl rfl rfl rfl (by rw [dead_snoc]; simp)⟩
  | message m =>
    have hal' : σ.alive = true ↔ ¬Dead (h ++ [.message m]) := by rw [dead_snoc, H.alive]; simp
    have hdead : σ.alive = false → Dead h := fun e => Classical.byContradiction (fun hn => by rw [H.alive.2 hn] at e; cases e)
    rw [message_ok H m]
    have q : ∀ τ : St, τ.bus = σ.bus → τ.config = σ.config → τ.subscriber = σ.subscriber → τ.publisher = σ.publisher → τ.send = σ.send →
        τ.world = σ.world → τ.alive = σ.alive → ∃ τ', R.to τ = .to τ' ∧ Inv b n config τ' (h ++ [.message m]) :=
      fun τ h1 h2 h3 h4 h5 h6 h7 => ⟨τ, rfl, H.quiet rfl rfl h1 h2 h3 h4 h5 h6 (h7 ▸ hal')⟩
    split
    · rename_i e
      split
      · exact q _ rfl rfl rfl rfl rfl rfl rfl
      · rename_i hz
        cases ht : textOf m.dg with
        | none => exact q _ rfl rfl rfl rfl rfl rfl rfl
        | some s =>
          simp only
          split
          · exact q _ rfl rfl rfl rfl rfl rfl rfl
          · rename_i hn
            exact absurd ⟨e, textOf_some.2 (by rw [ht]; simp), hz⟩ (ha (hdead (by simpa using hn))).1
    · split
      · rename_i e
        split
        · exact q _ rfl rfl rfl rfl rfl rfl rfl
        · rename_i hz
          cases ht : Action.idOf m.dg with
          | none => exact q _ rfl rfl rfl rfl rfl rfl rfl
          | some s =>
            simp only
            split
            · exact q _ rfl rfl rfl rfl rfl rfl rfl
            · rename_i hn
              exact absurd ⟨e, by rw [ht]; simp, hz⟩ (ha (hdead (by simpa using hn))).2
      · exact q _ rfl rfl rfl rfl rfl rfl rfl
  | subscribe t c =>
    have hb := H.bus
    subst hb
    have hal' : σ.alive = true ↔ ¬Dead (h ++ [.subscribe t c]) := by rw [dead_snoc, H.alive]; simp
    obtain ⟨w, hw, g, hpub⟩ : ∃ w, Bus.createSubscriber σ.bus t (some (c + 2)) σ.world = .ok σ.world.ns w ∧ Grows σ.world w σ.bus (some (c + 2)) t ∧
        (w.pub = σ.world.pub ∧ w.np = σ.world.np ∧ (w.bus σ.bus).pubs = (σ.world.bus σ.bus).pubs) := by
      refine ⟨_, rfl, ⟨rfl, ?_, ?_, ?_, fun s hs => ?_⟩, rfl, rfl, ?_⟩
      all_goals simp [Bus.World.setBus, Bus.World.setSub]
      all_goals omega
    simp only [step, hw]
    have l := g.has H.tidy H.log (fun e => by simp at e)
    have r := g.has H.tidy H.req (fun e => by simp at e)
    rw [if_neg (by simp)] at l r
    refine ⟨_, rfl, H.other rfl rfl rfl rfl rfl rfl rfl (g.tidy H.tidy) l r (fun s h1 h2 => ?_) hpub hal'⟩
    have : s ≠ σ.world.ns := fun e => by have := H.tidy.old s h1; omega
    exact ⟨by show s ∈ (w.bus σ.bus).subs; rw [g.subs]; exact List.mem_append_left _ h1, by show (w.sub s).cb = _; rw [g.rest s this]; exact h2⟩
  | unsubscribe s =>
    have hb := H.bus
    subst hb
    have hal' : σ.alive = true ↔ ¬Dead (h ++ [.unsubscribe s]) := by rw [dead_snoc, H.alive]; simp
    simp only [step]
    by_cases hc : (σ.world.sub s).cb = some 0 ∨ (σ.world.sub s).cb = some 1
    · rw [if_pos hc]
      exact ⟨σ, rfl, H.quiet rfl rfl rfl rfl rfl rfl rfl rfl hal'⟩
    · rw [if_neg hc]
      obtain ⟨w, hw, g, hpub⟩ : ∃ w, Bus.deleteSubscriber σ.bus (some s) σ.world = .ok () w ∧ Shrinks σ.world w σ.bus s ∧
          (w.pub = σ.world.pub ∧ w.np = σ.world.np ∧ (w.bus σ.bus).pubs = (σ.world.bus σ.bus).pubs) := by
        refine ⟨_, rfl, ⟨rfl, ?_, ?_, fun s' hs => ?_⟩, rfl, rfl, ?_⟩
        · simp [Bus.World.setBus, Bus.World.setSub]
        · simp [Bus.World.setBus, Bus.World.setSub]
        · simp [Bus.World.setBus, Bus.World.setSub, hs]
        · simp [Bus.World.setBus, Bus.World.setSub]
      rw [hw]
      refine ⟨_, rfl, H.other rfl rfl rfl rfl rfl rfl rfl (g.tidy H.tidy) (g.keeps H.log (fun e => hc (.inl e)))
        (g.keeps H.req (fun e => hc (.inr e))) (fun s' h1 h2 => ?_) hpub hal'⟩
      have hne : s' ≠ s := fun e => hc (.inl (e ▸ h2))
      exact ⟨by show s' ∈ (w.bus σ.bus).subs; rw [g.subs]; exact List.mem_filter.2 ⟨h1, by simpa using hne⟩,
        by show (w.sub s').cb = _; rw [g.rest s' hne]; exact h2⟩

/-- What is not allowed is undefined. -/
theorem step_ub (H : Inv b n config σ h) {a : Act} (ha : ¬Allowed config h a) : step σ a = .ub := by
  have hdead : Dead h → σ.alive = false := fun hd => by
    cases e : σ.alive
    · rfl
    · exact absurd hd (H.alive.1 e)
  cases a with
  | init => simp only [Allowed, Classical.not_not] at ha; simp [step, hdead ha]
  | destroy => simp only [Allowed, Classical.not_not] at ha; simp [step, hdead ha]
  | deinit =>
    simp only [step]
    split
    · rename_i hal
      have hu : ¬Up h := fun hu => ha ⟨H.alive.1 hal, hu⟩
      simp [tearDown, (H.down hu).1, Bus.deleteSubscriber]
    · rfl
  | beat =>
    simp only [step]
    split
    · rename_i hal
      have hx : ¬(config = true → inits h = 0 ∨ Up h) := fun hx => ha ⟨H.alive.1 hal, hx⟩
      have hc : config = true := Classical.byContradiction (fun hn => hx (fun e => absurd e hn))
      have hz : inits h ≠ 0 := fun e => hx (fun _ => .inl e)
      have hu : ¬Up h := fun e => hx (fun _ => .inr e)
      have hs : σ.send = true := by rw [H.send, hc]; simpa using hz
      simp [round, hs, (H.down hu).2]
    · rfl
  | message m =>
    simp only [Allowed] at ha
    have hd : Dead h := Classical.byContradiction (fun hn => ha (fun e => absurd e hn))
    have hal := hdead hd
    rw [message_ok H m]
    have : (m.topic = bs "/sysinfo" ∧ (∃ s, m.dg = .value (.str s)) ∧ surplus h ≠ 0) ∨
        (m.topic = bs "/sysinfoaction/request" ∧ Action.idOf m.dg ≠ none ∧ inits h ≠ 0) := by
      apply Classical.byContradiction
      intro hn
      exact ha (fun _ => ⟨fun e => hn (.inl e), fun e => hn (.inr e)⟩)
    rcases this with ⟨e1, e2, e3⟩ | ⟨e1, e2, e3⟩
    · rw [if_pos e1, if_neg e3]
      cases ht : textOf m.dg with
      | none => exact absurd ht (textOf_some.1 e2)
      | some s => simp [hal]
    · rw [if_neg (by rw [e1]; decide), if_pos e1, if_neg e3]
      cases ht : Action.idOf m.dg with
      | none => exact absurd ht e2
      | some s => simp [hal]
  | subscribe t c => exact absurd trivial ha
  | unsubscribe s => exact absurd trivial ha

/-- What a history does: defined exactly when it is safe, and then the invariant holds. -/
theorem exec_char (H : Inv b n config σ []) (h : List Act) :
    (Safe config h → ∃ τ, exec σ h = .to τ ∧ Inv b n config τ h) ∧ (¬Safe config h → exec σ h = .ub) := by
  induction h using snoc_rec with
  | h0 => exact ⟨fun _ => ⟨σ, rfl, H⟩, fun hn => absurd safe_nil hn⟩
  | h1 h a ih =>
    rw [exec_snoc, safe_snoc]
    by_cases hs : Safe config h
    · obtain ⟨τ, e, i⟩ := ih.1 hs
      rw [e]
      exact ⟨fun hh => step_ok i hh.2, fun hh => step_ub i (fun ha => hh ⟨hs, ha⟩)⟩
    · rw [ih.2 hs]
      exact ⟨fun hh => absurd hh.1 hs, fun _ => rfl⟩

theorem inv_of_exec (H : Inv b n config σ []) {τ : St} (e : exec σ h = .to τ) : Inv b n config τ h := by
  by_cases hs : Safe config h
  · obtain ⟨τ', e', i⟩ := (exec_char H h).1 hs
    rw [e] at e'; cases e'; exact i
  · rw [(exec_char H h).2 hs] at e; cases e

/-- What no call changes about the instance's bus. -/
abbrev Kept (σ τ : St) : Prop :=
  (τ.world.bus τ.bus).name = (σ.world.bus σ.bus).name ∧ (τ.world.bus τ.bus).attached = (σ.world.bus σ.bus).attached ∧ τ.bus = σ.bus

theorem kept_callAll {m : BMsg} {cs : List Bus.Call} {σ τ : St} (e : callAll m cs σ = .to τ) : τ.world = σ.world ∧ τ.bus = σ.bus := by
  induction cs generalizing σ with
  | nil => simp only [callAll] at e; cases e; exact ⟨rfl, rfl⟩
  | cons c cs ih =>
    simp only [callAll] at e
    split at e
    · split at e
      · split at e
        · have := ih e; exact this
        · cases e
      · cases e; exact ⟨rfl, rfl⟩
    · split at e
      · split at e
        · split at e
          · have := ih e; exact this
          · cases e
        · cases e; exact ⟨rfl, rfl⟩
      · exact ih e

theorem kept_step {σ τ : St} {a : Act} (e : step σ a = .to τ) : Kept σ τ := by
  cases a with
  | init =>
    simp only [step, setUp, provide, Bus.createPublisher, Bus.createSubscriber] at e
    split at e
    · cases e
      exact ⟨by simp [Bus.setCallback, Bus.World.setBus, Bus.World.setSub, Bus.World.setPub],
        by simp [Bus.setCallback, Bus.World.setBus, Bus.World.setSub, Bus.World.setPub], rfl⟩
    · cases e
  | deinit =>
    simp only [step, tearDown, Bus.deleteSubscriber, Bus.deletePublisher] at e
    cases hs : σ.subscriber <;> cases hp : σ.publisher <;> simp only [hs, hp] at e <;> split at e <;> cases e
    exact ⟨by simp [Bus.World.setBus, Bus.World.setSub, Bus.World.setPub], by simp [Bus.World.setBus, Bus.World.setSub, Bus.World.setPub], rfl⟩
  | beat =>
    simp only [step, round] at e
    split at e
    · split at e
      · split at e
        · cases e
        · split at e <;> cases e <;> exact ⟨rfl, rfl, rfl⟩
      · cases e; exact ⟨rfl, rfl, rfl⟩
    · cases e
  | destroy => simp only [step] at e; split at e <;> cases e; exact ⟨rfl, rfl, rfl⟩
  | message m => obtain ⟨h1, h2⟩ := kept_callAll e; exact ⟨by rw [h1, h2], by rw [h1, h2], h2⟩
  | subscribe t c =>
    simp only [step, Bus.createSubscriber] at e
    cases e
    exact ⟨by simp [Bus.World.setBus, Bus.World.setSub], by simp [Bus.World.setBus, Bus.World.setSub], rfl⟩
  | unsubscribe s =>
    simp only [step, Bus.deleteSubscriber] at e
    split at e
    · cases e; exact ⟨rfl, rfl, rfl⟩
    · cases e
      exact ⟨by simp [Bus.World.setBus, Bus.World.setSub], by simp [Bus.World.setBus, Bus.World.setSub], rfl⟩

theorem kept_exec {σ τ : St} {h : List Act} (e : exec σ h = .to τ) : Kept σ τ := by
  induction h generalizing σ with
  | nil => simp only [exec] at e; cases e; exact ⟨rfl, rfl, rfl⟩
  | cons a h ih =>
    simp only [exec] at e
    cases hs : step σ a with
    | ub => rw [hs] at e; cases e
    | to υ =>
      rw [hs] at e
      obtain ⟨h1, h2, h3⟩ := ih e
      obtain ⟨g1, g2, g3⟩ := kept_step hs
      exact ⟨h1.trans g1, h2.trans g2, h3.trans g3⟩

end LP.SysLife
