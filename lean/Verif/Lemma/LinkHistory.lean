import Verif.Lemma.LinkLife
/-!
# A link after a history of calls
-/
namespace LP.LinkLife
open LP.Bus (World BMsg)
open LP.Link (Role)

theorem snoc_rec {P : List Act → Prop} (h0 : P []) (h1 : ∀ h a, P h → P (h ++ [a])) (h : List Act) : P h := by
  have : ∀ l : List Act, P l.reverse := by
    intro l
    induction l with
    | nil => exact h0
    | cons a l ih => rw [List.reverse_cons]; exact h1 _ _ ih
  simpa using this h.reverse

theorem exec_snoc (σ : St) (h : List Act) (a : Act) : exec σ (h ++ [a]) = (exec σ h).andThen (fun τ => step τ a) := by
  induction h generalizing σ with
  | nil =>
    simp only [List.nil_append, exec, R.andThen]
    cases step σ a <;> rfl
  | cons b h ih =>
    simp only [List.cons_append, exec]
    cases step σ b with
    | ub => rfl
    | hangs => rfl
    | to τ => exact ih τ

theorem safe_nil : Safe [] := by
  intro p a q e; simp at e

theorem safe_snoc {h : List Act} {a : Act} : Safe (h ++ [a]) ↔ Safe h ∧ Allowed h a := by
  constructor
  · intro hs
    exact ⟨fun p b q e => hs p b (q ++ [a]) (by rw [e]; simp), hs h a [] rfl⟩
  · rintro ⟨hs, ha⟩ p b q e
    rcases List.eq_nil_or_concat q with rfl | ⟨q', c, rfl⟩
    · obtain ⟨e1, e2⟩ := List.append_inj' e rfl
      injection e2 with e2
      subst e1 e2; exact ha
    · rw [List.concat_eq_append, ← List.cons_append, ← List.append_assoc] at e
      obtain ⟨e, -⟩ := List.append_inj' e rfl
      exact hs p b q' e

theorem lastCall_snoc (h : List Act) (a : Act) : lastCall (h ++ [a]) = if a.isInit || a.isDeinit then some a else lastCall h := by
  unfold lastCall
  rw [List.reverse_append]
  simp only [List.reverse_cons, List.reverse_nil, List.nil_append, List.singleton_append, List.find?_cons]
  cases a.isInit || a.isDeinit <;> rfl

/-- The subscribers of the link's bus. -/
abbrev St.subs (σ : St) : List Nat := (σ.world.bus σ.bus).subs

/-- A subscriber with the link's lambda. -/
abbrev St.mine (σ : St) (s : Nat) : Bool := (σ.world.sub s).cb == some 0

/-- The link's subscribers among those of its bus. -/
structure BI (σ : St) (n : Nat) : Prop where
  old : ∀ s ∈ σ.subs, s < σ.world.ns
  once : σ.subs.Nodup
  count : (σ.subs.filter σ.mine).length = n
  topic : ∀ s ∈ σ.subs, σ.mine s = true → (σ.world.sub s).topic = Link.everything

/-- The link after a history. -/
structure Inv (σ : St) (h : List Act) : Prop where
  z : ZI σ (fun _ _ => True)
  b : BI σ (surplus h)
  more : h.countP Act.isDeinit ≤ h.countP Act.isInit
  up : ∀ l, lastCall h = some (.init l) → ∃ s, σ.handle = some s ∧ s ∈ σ.subs ∧ σ.mine s = true
  down : (∀ l, lastCall h ≠ some (.init l)) → σ.handle = none ∧ σ.context = none ∧ ∀ r p, σ.ptr r p = none
  alive : σ.alive = true ↔ ¬Dead h

theorem outlets_send {σ : St} (h : ZI σ (fun _ _ => True)) (m : BMsg) (r : Role) :
    send m r σ = .to { σ with sent := σ.sent ++ ((σ.ptr r true).toList.map (fun i => (i, m))) } := by
  unfold send
  cases hi : σ.ptr r true with
  | none => simp
  | some i =>
    obtain ⟨s, hs, e, -⟩ := h.point r true i trivial hi
    simp only
    rw [if_pos (by simp only [List.any_eq_true, beq_iff_eq]; exact ⟨s, hs, e⟩)]
    rfl

theorem ZI.sent {σ : St} {P : Role → Bool → Prop} (h : ZI σ P) (x : List (Nat × BMsg)) : ZI { σ with sent := x } P :=
  ⟨h.point, h.low, h.one, h.ids, h.ctxs, h.uniq, h.own, h.offS, h.offC, h.alone, h.held, h.clow, h.conce⟩

/-- What one call of the lambda sends. -/
def St.copy (σ : St) (m : BMsg) : List (Nat × BMsg) := if Net.echo σ.ident m then [] else σ.outlets.map (fun i => (i, m))

theorem lambda_alive {σ : St} (h : ZI σ (fun _ _ => True)) (ha : σ.alive = true) (m : BMsg) :
    lambda m σ = .to { σ with sent := σ.sent ++ σ.copy m } := by
  unfold lambda St.copy
  rw [if_neg (by simp [ha])]
  split
  · simp
  · rw [outlets_send h]
    simp only [R.andThen]
    rw [outlets_send (h.sent _)]
    simp [St.outlets, List.append_assoc]

theorem callAll_alive {σ : St} (h : ZI σ (fun _ _ => True)) (ha : σ.alive = true) (m : BMsg) (cs : List Bus.Call) :
    callAll m cs σ = .to { σ with sent := σ.sent ++ (List.replicate (cs.countP (fun c => c.cb == 0)) (σ.copy m)).flatten } := by
  induction cs generalizing σ with
  | nil => simp [callAll]
  | cons c cs ih =>
    simp only [callAll]
    by_cases hc : c.cb = 0
    · rw [if_pos hc, lambda_alive h ha]
      simp only [R.andThen]
      rw [ih (σ := { σ with sent := σ.sent ++ σ.copy m }) (h.sent _) ha]
      simp [hc, List.replicate_succ, St.copy, St.outlets]
    · rw [if_neg hc]
      simp only [R.andThen]
      rw [ih h ha]
      simp [hc]

theorem callAll_dead {σ : St} (ha : σ.alive = false) (m : BMsg) (cs : List Bus.Call) :
    callAll m cs σ = if cs.countP (fun c => c.cb == 0) = 0 then .to σ else .ub := by
  induction cs with
  | nil => simp [callAll]
  | cons c cs ih =>
    simp only [callAll]
    by_cases hc : c.cb = 0
    · rw [if_pos hc]
      simp [lambda, ha, R.andThen, hc]
    · rw [if_neg hc]
      simp only [R.andThen]
      rw [ih]
      simp [hc]

theorem everything_matches (t : Str) : antMatches Link.everything t = true := by
  unfold antMatches Link.everything
  split <;> simp

theorem offers (w : World) (m : BMsg) (l : List Nat) (ht : ∀ s ∈ l, (w.sub s).cb = some 0 → (w.sub s).topic = Link.everything) :
    (l.filterMap (Bus.offer w m)).countP (fun c => c.cb == 0) = (l.filter (fun s => (w.sub s).cb == some 0)).length := by
  induction l with
  | nil => rfl
  | cons s l ih =>
    have ih := ih (fun s hs => ht s (List.mem_cons_of_mem _ hs))
    by_cases hc : (w.sub s).cb = some 0
    · have : Bus.offer w m s = some ⟨s, 0⟩ := by
        unfold Bus.offer
        rw [ht s List.mem_cons_self hc, everything_matches, hc]; rfl
      rw [List.filterMap_cons_some this, List.countP_cons, ih, List.filter_cons_of_pos (by simp [hc])]
      simp
    · rw [List.filter_cons_of_neg (by simp [hc]), ← ih]
      cases ho : Bus.offer w m s with
      | none => rw [List.filterMap_cons_none ho]
      | some c =>
        rw [List.filterMap_cons_some ho, List.countP_cons]
        have : c.cb ≠ 0 := by
          intro e
          unfold Bus.offer at ho
          split at ho
          · obtain ⟨k, hk, rfl⟩ := Option.map_eq_some_iff.1 ho
            simp only at e; subst e; exact hc hk
          · cases ho
        simp [this]

theorem Inv.calls {σ : St} {h : List Act} (H : Inv σ h) (m : BMsg) :
    (σ.subs.filterMap (Bus.offer σ.world m)).countP (fun c => c.cb == 0) = surplus h := by
  rw [offers _ _ _ (fun s hs hc => H.b.topic s hs (by simp [St.mine, hc])), ← H.b.count]

/-- What making the link's subscriber comes to. -/
theorem listen_ok (σ : St) : ∃ τ, σ.listen = .to τ ∧ τ.world.ns = σ.world.ns + 1 ∧ τ.subs = σ.subs ++ [σ.world.ns] ∧
    τ.world.sub σ.world.ns = ⟨Link.everything, some 0, σ.bus⟩ ∧ (∀ s, s ≠ σ.world.ns → τ.world.sub s = σ.world.sub s) ∧
    τ.handle = some σ.world.ns ∧ τ.bus = σ.bus ∧ τ.alive = σ.alive ∧ τ.sent = σ.sent ∧ τ.context = σ.context ∧
    τ.contexts = σ.contexts ∧ τ.ptr = σ.ptr ∧ τ.socks = σ.socks ∧ τ.next = σ.next ∧ τ.server = σ.server ∧ τ.client = σ.client ∧
    τ.ident = σ.ident ∧ τ.addr = σ.addr := by
  refine ⟨_, rfl, rfl, ?_, ?_, fun s hs => ?_, rfl, rfl, rfl, rfl, rfl, rfl, rfl, rfl, rfl, rfl, rfl, rfl, rfl⟩
  · simp [Bus.setCallback, Bus.World.setBus, Bus.World.setSub, St.subs]
  · simp [Bus.setCallback, Bus.World.setBus, Bus.World.setSub]
  · simp [Bus.setCallback, Bus.World.setBus, Bus.World.setSub, hs]

/-- A new subscriber of the link. -/
theorem bi_listen {σ τ : St} {n : Nat} (h : BI σ n) (e1 : τ.world.ns = σ.world.ns + 1) (e2 : τ.subs = σ.subs ++ [σ.world.ns])
    (e3 : τ.world.sub σ.world.ns = ⟨Link.everything, some 0, σ.bus⟩) (e4 : ∀ s, s ≠ σ.world.ns → τ.world.sub s = σ.world.sub s) :
    BI τ (n + 1) ∧ σ.world.ns ∈ τ.subs ∧ τ.mine σ.world.ns = true := by
  have hne : ∀ s' ∈ σ.subs, s' ≠ σ.world.ns := fun s' hs' e => by have := h.old s' hs'; omega
  refine ⟨⟨?_, ?_, ?_, ?_⟩, by rw [e2]; simp, by simp [St.mine, e3]⟩
  · intro s' hs'
    rw [e2] at hs'
    rw [e1]
    rcases List.mem_append.1 hs' with hm | hm
    · have := h.old s' hm; omega
    · simp only [List.mem_singleton] at hm; omega
  · rw [e2, List.nodup_append]
    refine ⟨h.once, by simp, fun a ha b hb => ?_⟩
    simp only [List.mem_singleton] at hb
    rw [hb]; exact hne a ha
  · rw [e2, List.filter_append, List.filter_cons_of_pos (by simp [St.mine, e3]), List.length_append, ← h.count]
    congr 2
    apply List.filter_congr
    intro s' hs'
    exact congrArg (fun x : Bus.SubSt => x.cb == some 0) (e4 s' (hne s' hs'))
  · intro s' hs' hm'
    simp only [St.mine] at hm'
    rw [e2] at hs'
    by_cases e : s' = σ.world.ns
    · subst e; rw [e3]
    · rw [e4 s' e] at hm' ⊢
      rcases List.mem_append.1 hs' with hm | hm
      · exact h.topic s' hm hm'
      · simp only [List.mem_singleton] at hm; exact absurd hm e

theorem delete_world {b s : Nat} {w v : World} {u : Unit} (hd : Bus.deleteSubscriber b (some s) w = .ok u v) :
    v.ns = w.ns ∧ (v.bus b).subs = (w.bus b).subs.filter (fun i => i != s) ∧ (v.sub s).cb = none ∧ ∀ s', s' ≠ s → v.sub s' = w.sub s' := by
  unfold Bus.deleteSubscriber at hd
  simp only [Res.ok.injEq, true_and] at hd
  subst hd
  refine ⟨rfl, by simp [Bus.World.setBus, Bus.World.setSub], by simp [Bus.World.setSub], fun s' hne => ?_⟩
  simp [Bus.World.setBus, Bus.World.setSub, hne]

/-- The link's subscriber is deleted. -/
theorem bi_delete {σ τ : St} {n s : Nat} {u : Unit} (h : BI σ (n + 1)) (hs : s ∈ σ.subs) (hm : σ.mine s = true)
    (hb : τ.bus = σ.bus) (hd : Bus.deleteSubscriber σ.bus (some s) σ.world = .ok u τ.world) : BI τ n := by
  obtain ⟨e1, e2, e3, e4⟩ := delete_world hd
  have e2' : τ.subs = σ.subs.filter (fun i => i != s) := by simp only [St.subs]; rw [hb]; exact e2
  refine ⟨?_, ?_, ?_, ?_⟩
  · intro s' hs'
    rw [e2'] at hs'
    rw [e1]
    exact h.old s' (List.mem_filter.1 hs').1
  · rw [e2']
    exact h.once.sublist List.filter_sublist
  · rw [e2']
    have : (σ.subs.filter (fun i => i != s)).filter τ.mine = (σ.subs.filter σ.mine).erase s := by
      rw [List.Nodup.erase_eq_filter (h.once.sublist List.filter_sublist), List.filter_filter, List.filter_filter]
      apply List.filter_congr
      intro s' _
      by_cases e : s' = s
      · subst e; simp
      · simp only [St.mine]
        rw [e4 s' e, Bool.and_comm]
    rw [this, List.length_erase_of_mem (List.mem_filter.2 ⟨hs, hm⟩), h.count]
    rfl
  · intro s' hs' hm'
    by_cases e : s' = s
    · subst e
      simp [St.mine, e3] at hm'
    · rw [e2'] at hs'
      simp only [St.mine] at hm'
      rw [e4 s' e] at hm' ⊢
      exact h.topic s' (List.mem_filter.1 hs').1 hm'

/-- A subscriber of other code is deleted. -/
theorem bi_unsubscribe {σ τ : St} {n s : Nat} {u : Unit} (h : BI σ n) (hm : (σ.world.sub s).cb ≠ some 0)
    (hb : τ.bus = σ.bus) (hd : Bus.deleteSubscriber σ.bus (some s) σ.world = .ok u τ.world) :
    BI τ n ∧ ∀ s', s' ∈ σ.subs → σ.mine s' = true → s' ∈ τ.subs ∧ τ.mine s' = true := by
  obtain ⟨e1, e2, e3, e4⟩ := delete_world hd
  have e2' : τ.subs = σ.subs.filter (fun i => i != s) := by simp only [St.subs]; rw [hb]; exact e2
  refine ⟨⟨?_, ?_, ?_, ?_⟩, ?_⟩
  · intro s' hs'
    rw [e2'] at hs'
    rw [e1]
    exact h.old s' (List.mem_filter.1 hs').1
  · rw [e2']
    exact h.once.sublist List.filter_sublist
  · rw [e2', List.filter_filter, ← h.count]
    congr 1
    apply List.filter_congr
    intro s' _
    by_cases e : s' = s
    · subst e; simp [St.mine, hm]
    · simp only [St.mine]
      rw [e4 s' e]
      simp [e]
  · intro s' hs' hm'
    by_cases e : s' = s
    · subst e
      simp [St.mine, e3] at hm'
    · rw [e2'] at hs'
      simp only [St.mine] at hm'
      rw [e4 s' e] at hm' ⊢
      exact h.topic s' (List.mem_filter.1 hs').1 hm'
  · intro s' hs' hm'
    have e : s' ≠ s := by rintro rfl; exact hm (by simpa [St.mine] using hm')
    refine ⟨by rw [e2']; exact List.mem_filter.2 ⟨hs', by simpa using e⟩, ?_⟩
    simp only [St.mine]
    rw [e4 s' e]; exact hm'

/-- Other code makes a subscriber. -/
theorem bi_subscribe {σ τ : St} {n s k : Nat} {t : Str} (h : BI σ n)
    (hb : τ.bus = σ.bus) (hd : Bus.createSubscriber σ.bus t (some (k + 1)) σ.world = .ok s τ.world) :
    BI τ n ∧ ∀ s', s' ∈ σ.subs → σ.mine s' = true → s' ∈ τ.subs ∧ τ.mine s' = true := by
  have hw : τ.world.ns = σ.world.ns + 1 ∧ τ.subs = σ.subs ++ [σ.world.ns] ∧ (τ.world.sub σ.world.ns).cb = some (k + 1) ∧
      ∀ s', s' ≠ σ.world.ns → τ.world.sub s' = σ.world.sub s' := by
    unfold Bus.createSubscriber at hd
    simp only [Res.ok.injEq] at hd
    obtain ⟨-, hd⟩ := hd
    simp only [St.subs]
    rw [hb, ← hd]
    refine ⟨rfl, by simp [Bus.World.setBus, Bus.World.setSub], by simp [Bus.World.setBus, Bus.World.setSub], fun s' hne => ?_⟩
    simp [Bus.World.setBus, Bus.World.setSub, hne]
  obtain ⟨e1, e2, e3, e4⟩ := hw
  have hne : ∀ s' ∈ σ.subs, s' ≠ σ.world.ns := fun s' hs' e => by have := h.old s' hs'; omega
  refine ⟨⟨?_, ?_, ?_, ?_⟩, ?_⟩
  · intro s' hs'
    rw [e2] at hs'
    rw [e1]
    rcases List.mem_append.1 hs' with hm | hm
    · have := h.old s' hm; omega
    · simp only [List.mem_singleton] at hm; omega
  · rw [e2, List.nodup_append]
    refine ⟨h.once, by simp, fun a ha b hb => ?_⟩
    simp only [List.mem_singleton] at hb
    rw [hb]; exact hne a ha
  · rw [e2, List.filter_append, List.filter_cons_of_neg (by simp [St.mine, e3])]
    simp only [List.filter_nil, List.append_nil]
    rw [← h.count]
    congr 1
    apply List.filter_congr
    intro s' hs'
    simp only [St.mine]
    rw [e4 s' (hne s' hs')]
  · intro s' hs' hm'
    simp only [St.mine] at hm'
    rw [e2] at hs'
    by_cases e : s' = σ.world.ns
    · subst e; rw [e3] at hm'; simp at hm'
    · rw [e4 s' e] at hm' ⊢
      rcases List.mem_append.1 hs' with hm | hm
      · exact h.topic s' hm hm'
      · simp only [List.mem_singleton] at hm; exact absurd hm e
  · intro s' hs' hm'
    refine ⟨by rw [e2]; exact List.mem_append_left _ hs', ?_⟩
    simp only [St.mine]
    rw [e4 s' (hne s' hs')]; exact hm'

theorem bi_kept {σ τ : St} {n : Nat} (h : BI σ n) (k : Kept σ τ) : BI τ n := by
  have e1 : τ.subs = σ.subs := by simp only [St.subs]; rw [k.world, k.bus]
  have e2 : τ.mine = σ.mine := by funext s; simp only [St.mine]; rw [k.world]
  exact ⟨by rw [e1, k.world]; exact h.old, by rw [e1]; exact h.once, by rw [e1, e2]; exact h.count,
    by rw [e1, e2, k.world]; exact h.topic⟩

/-- Nothing but the bus, the handle, `alive` and what was sent differs. -/
structure Same (σ τ : St) : Prop where
  ident : τ.ident = σ.ident
  bus : τ.bus = σ.bus
  server : τ.server = σ.server
  client : τ.client = σ.client
  addr : τ.addr = σ.addr
  context : τ.context = σ.context
  ptr : τ.ptr = σ.ptr
  contexts : τ.contexts = σ.contexts
  socks : τ.socks = σ.socks
  next : τ.next = σ.next

theorem Same.zi {σ τ : St} {P : Role → Bool → Prop} (k : Same σ τ) (h : ZI σ P) : ZI τ P := by
  obtain ⟨_, _, hs, hc, _, hx, hp, hxs, hk, hn⟩ := k
  obtain ⟨a1, a2, a3, a4, a5, a6, a7, a8, a9, a10, a11, a12, a13⟩ := h
  rw [← hs] at a8; rw [← hc] at a9; rw [← hn] at a2 a4 a5 a12; rw [← hk] at a1 a4 a5 a6 a7 a10
  rw [← hp] at a1 a2 a3 a7 a8 a9; rw [← hx] at a1 a7 a11; rw [← hxs] at a11 a12 a13
  exact ⟨a1, a2, a3, a4, a5, a6, a7, a8, a9, a10, a11, a12, a13⟩

theorem dead_snoc {h : List Act} {a : Act} : Dead (h ++ [a]) ↔ Dead h ∨ a = .destroy := by
  simp only [Dead, List.mem_append, List.mem_singleton]
  exact ⟨fun h => h.imp id Eq.symm, fun h => h.imp id Eq.symm⟩

theorem surplus_init {h : List Act} {l : Luck} (H : h.countP Act.isDeinit ≤ h.countP Act.isInit) :
    surplus (h ++ [.init l]) = surplus h + 1 := by
  simp only [surplus, List.countP_append, List.countP_cons, List.countP_nil, Act.isInit, Act.isDeinit]
  simp; omega

theorem surplus_deinit {h : List Act} : surplus (h ++ [.deinit]) = surplus h - 1 := by
  simp only [surplus, List.countP_append, List.countP_cons, List.countP_nil, Act.isInit, Act.isDeinit]
  simp; omega

theorem surplus_other {h : List Act} {a : Act} (h1 : a.isInit = false) (h2 : a.isDeinit = false) : surplus (h ++ [a]) = surplus h := by
  simp [surplus, List.countP_append, h1, h2]

theorem lastCall_other {h : List Act} {a : Act} (h1 : a.isInit = false) (h2 : a.isDeinit = false) : lastCall (h ++ [a]) = lastCall h := by
  simp [lastCall_snoc, h1, h2]

/-- `Initialize` on a link that exists. -/
theorem init_ok {σ : St} {h : List Act} (H : Inv σ h) (hd : ¬Dead h) (l : Luck) :
    ∃ τ, step σ (.init l) = .to τ ∧ Inv τ (h ++ [.init l]) ∧ Same (wired σ l) τ ∧ τ.sent = σ.sent := by
  have ha := H.alive.2 hd
  obtain ⟨τ, e, e1, e2, e3, e4, e5, e6, e7, e8, e9, e10, e11, e12, e13, e14, e15, e16, e17⟩ := listen_ok (wired σ l)
  have k := kept_wired σ l
  have z : ZI (wired σ l) (fun _ _ => True) := zi_wired H.z
  have s : Same (wired σ l) τ := ⟨e16, e6, e14, e15, e17, e9, e11, e10, e12, e13⟩
  obtain ⟨b1, b2, b3⟩ := bi_listen (bi_kept H.b k) e1 e2 e3 e4
  refine ⟨τ, ?_, ⟨s.zi z, ?_, ?_, fun l' _ => ⟨_, e5, b2, b3⟩, fun hn => ?_, ?_⟩, s, e8.trans k.sent⟩
  · simp only [step, ha, if_true, setUp]; exact e
  · rw [surplus_init H.more]; exact b1
  · have := H.more
    simp only [List.countP_append, List.countP_cons, List.countP_nil, Act.isInit, Act.isDeinit]
    simp; omega
  · exact absurd (by simp [lastCall_snoc, Act.isInit]) (hn l)
  · rw [dead_snoc, e7, k.alive, H.alive]; simp

/-- `Deinitialize` right after `Initialize`. -/
theorem deinit_ok {σ : St} {h : List Act} (H : Inv σ h) (hd : ¬Dead h) {l : Luck} (hl : lastCall h = some (.init l)) :
    ∃ τ, step σ .deinit = .to τ ∧ Inv τ (h ++ [.deinit]) ∧ τ.sent = σ.sent ∧ τ.contexts.length + σ.context.isSome.toNat = σ.contexts.length ∧
      (∀ s ∈ τ.socks, s ∈ σ.socks) ∧ (∀ s ∈ σ.socks, (∀ r p, σ.ptr r p ≠ some s.id) → s ∈ τ.socks) ∧
      (∀ s ∈ τ.socks, σ.context ≠ some s.ctx) ∧ τ.ident = σ.ident ∧ τ.bus = σ.bus ∧ τ.server = σ.server ∧ τ.client = σ.client ∧
      τ.addr = σ.addr := by
  have ha := H.alive.2 hd
  obtain ⟨s, hs, hm, hmine⟩ := H.up l hl
  have hpos : surplus h = (surplus h - 1) + 1 := by
    have : 0 < (σ.subs.filter σ.mine).length := List.length_pos_of_mem (List.mem_filter.2 ⟨hm, hmine⟩)
    rw [H.b.count] at this; omega
  have hb := H.b
  rw [hpos] at hb
  obtain ⟨w, hw⟩ : ∃ w, Bus.deleteSubscriber σ.bus (some s) σ.world = .ok () w := ⟨_, rfl⟩
  have key : ∀ τ : St, τ.bus = σ.bus → τ.world = w → τ.handle = none → τ.alive = σ.alive → ZI τ (fun _ _ => True) →
      τ.context = none → (∀ r p, τ.ptr r p = none) → Inv τ (h ++ [.deinit]) := by
    intro τ h1 h2 h3 h4 h5 h6 h7
    refine ⟨h5, ?_, ?_, fun l' hl' => ?_, fun _ => ⟨h3, h6, h7⟩, ?_⟩
    · rw [surplus_deinit]
      exact bi_delete hb hm hmine h1 (h2 ▸ hw)
    · simp only [surplus] at hpos
      simp only [List.countP_append, List.countP_cons, List.countP_nil, Act.isInit, Act.isDeinit]
      simp; omega
    · simp [lastCall_snoc, Act.isInit, Act.isDeinit] at hl'
    · rw [dead_snoc, h4, H.alive]; simp
  have z1 : ZI { σ with world := w, handle := none } (fun _ _ => True) :=
    Same.zi (σ := σ) ⟨rfl, rfl, rfl, rfl, rfl, rfl, rfl, rfl, rfl, rfl⟩ H.z
  have est0 : σ.context = none → step σ .deinit = .to { σ with world := w, handle := none } := by
    intro hc
    simp only [step]
    rw [if_pos ha]
    simp only [tearDown, hs, hw]
    split
    · rfl
    · rename_i e; rw [hc] at e; cases e
  have est1 : σ.context ≠ none → step σ .deinit = ((((close .server true { σ with world := w, handle := none }).andThen
      (close .server false)).andThen (close .client true)).andThen (close .client false)).andThen terminate := by
    intro hc
    simp only [step]
    rw [if_pos ha]
    simp only [tearDown, hs, hw]
    split
    · rename_i e; exact absurd e hc
    · rfl
  by_cases hc : σ.context = none
  · have hp : ∀ r p, σ.ptr r p = none := by
      intro r p
      cases hi : σ.ptr r p with
      | none => rfl
      | some i =>
        obtain ⟨s', -, -, e⟩ := H.z.point r p i trivial hi
        rw [hc] at e; cases e
    exact ⟨_, est0 hc, key _ rfl rfl rfl rfl z1 hc hp, rfl, by rw [hc]; rfl, fun _ h => h, fun _ h _ => h,
      fun _ _ => by rw [hc]; simp, rfl, rfl, rfl, rfl, rfl⟩
  · obtain ⟨τ, e, z2, k, t1, t2, t3, t4, t5, t6⟩ := shut_ok z1 hc
    refine ⟨τ, (est1 hc).trans e, key τ k.bus k.world k.handle k.alive z2 t1 t2, k.sent, ?_, t4, t5, t6, k.ident, k.bus, k.server,
      k.client, k.addr⟩
    obtain ⟨c, hc'⟩ := Option.ne_none_iff_exists'.1 hc
    rw [hc']; exact t3

/-- Everything else, where it is allowed. -/
theorem other_ok {σ : St} {h : List Act} {a : Act} (H : Inv σ h) (h1 : a.isInit = false) (h2 : a.isDeinit = false) (hal : Allowed h a) :
    ∃ τ, step σ a = .to τ ∧ Inv τ (h ++ [a]) ∧ Same σ τ := by
  have more : (h ++ [a]).countP Act.isDeinit ≤ (h ++ [a]).countP Act.isInit := by
    have := H.more
    simp [List.countP_append, h1, h2]; omega
  have up : ∀ {τ : St}, τ.handle = σ.handle → (∀ s', s' ∈ σ.subs → σ.mine s' = true → s' ∈ τ.subs ∧ τ.mine s' = true) →
      ∀ l, lastCall (h ++ [a]) = some (.init l) → ∃ s, τ.handle = some s ∧ s ∈ τ.subs ∧ τ.mine s = true := by
    intro τ e f l hl
    rw [lastCall_other h1 h2] at hl
    obtain ⟨s, e', m, n⟩ := H.up l hl
    exact ⟨s, e.trans e', f s m n⟩
  have down : ∀ {τ : St}, τ.handle = σ.handle → Same σ τ → (∀ l, lastCall (h ++ [a]) ≠ some (.init l)) →
      τ.handle = none ∧ τ.context = none ∧ ∀ r p, τ.ptr r p = none := by
    intro τ e k hl
    rw [lastCall_other h1 h2] at hl
    rw [e, k.context, k.ptr]
    exact H.down hl
  cases a with
  | init l => cases h1
  | deinit => cases h2
  | destroy =>
    have hd : ¬Dead h := hal
    have ha := H.alive.2 hd
    refine ⟨{ σ with alive := false }, by simp [step, ha], ?_, ⟨rfl, rfl, rfl, rfl, rfl, rfl, rfl, rfl, rfl, rfl⟩⟩
    have k : Same σ { σ with alive := false } := ⟨rfl, rfl, rfl, rfl, rfl, rfl, rfl, rfl, rfl, rfl⟩
    refine ⟨k.zi H.z, ?_, more, up rfl (fun _ h g => ⟨h, g⟩), down rfl k, ?_⟩
    · rw [surplus_other h1 h2]; exact ⟨H.b.old, H.b.once, H.b.count, H.b.topic⟩
    · rw [dead_snoc]; simp
  | message m =>
    have ok : ∀ x, Same σ { σ with sent := x } := fun x => ⟨rfl, rfl, rfl, rfl, rfl, rfl, rfl, rfl, rfl, rfl⟩
    have inv : ∀ x, Inv { σ with sent := x } (h ++ [.message m]) := fun x =>
      ⟨(ok x).zi H.z, by rw [surplus_other h1 h2]; exact ⟨H.b.old, H.b.once, H.b.count, H.b.topic⟩, more,
        up rfl (fun _ h g => ⟨h, g⟩), down rfl (ok x), by rw [dead_snoc]; simpa using H.alive⟩
    by_cases hd : Dead h
    · have ha : σ.alive = false := by
        cases h : σ.alive with
        | false => rfl
        | true => exact absurd hd (H.alive.1 h)
      refine ⟨σ, ?_, inv σ.sent, ok σ.sent⟩
      simp only [step]
      rw [callAll_dead ha, if_pos ((H.calls m).trans (hal hd))]
    · exact ⟨_, callAll_alive H.z (H.alive.2 hd) m _, inv _, ok _⟩
  | subscribe t k =>
    obtain ⟨s, w, hw⟩ : ∃ s w, Bus.createSubscriber σ.bus t (some (k + 1)) σ.world = .ok s w := ⟨_, _, rfl⟩
    have e : Same σ { σ with world := w } := ⟨rfl, rfl, rfl, rfl, rfl, rfl, rfl, rfl, rfl, rfl⟩
    obtain ⟨b1, b2⟩ := bi_subscribe (τ := { σ with world := w }) H.b rfl hw
    exact ⟨_, by simp only [step, hw], ⟨e.zi H.z, by rw [surplus_other h1 h2]; exact b1, more, up rfl b2, down rfl e,
      by rw [dead_snoc]; simpa using H.alive⟩, e⟩
  | unsubscribe s =>
    by_cases hm : (σ.world.sub s).cb = some 0
    · exact ⟨σ, by simp [step, hm], ⟨H.z, by rw [surplus_other h1 h2]; exact H.b, more, up rfl (fun _ h g => ⟨h, g⟩),
        down rfl ⟨rfl, rfl, rfl, rfl, rfl, rfl, rfl, rfl, rfl, rfl⟩, by rw [dead_snoc]; simpa using H.alive⟩,
        ⟨rfl, rfl, rfl, rfl, rfl, rfl, rfl, rfl, rfl, rfl⟩⟩
    · obtain ⟨w, hw⟩ : ∃ w, Bus.deleteSubscriber σ.bus (some s) σ.world = .ok () w := ⟨_, rfl⟩
      have e : Same σ { σ with world := w } := ⟨rfl, rfl, rfl, rfl, rfl, rfl, rfl, rfl, rfl, rfl⟩
      obtain ⟨b1, b2⟩ := bi_unsubscribe (τ := { σ with world := w }) H.b hm rfl hw
      exact ⟨_, by simp [step, hm, hw], ⟨e.zi H.z, by rw [surplus_other h1 h2]; exact b1, more, up rfl b2, down rfl e,
        by rw [dead_snoc]; simpa using H.alive⟩, e⟩

theorem step_ok {σ : St} {h : List Act} {a : Act} (H : Inv σ h) (hal : Allowed h a) : ∃ τ, step σ a = .to τ ∧ Inv τ (h ++ [a]) := by
  cases a with
  | init l =>
    obtain ⟨τ, e, i, -⟩ := init_ok H hal l
    exact ⟨τ, e, i⟩
  | deinit =>
    obtain ⟨hd, l, hl⟩ := hal
    obtain ⟨τ, e, i, -⟩ := deinit_ok H hd hl
    exact ⟨τ, e, i⟩
  | destroy => obtain ⟨τ, e, i, -⟩ := other_ok H rfl rfl hal; exact ⟨τ, e, i⟩
  | message m => obtain ⟨τ, e, i, -⟩ := other_ok H rfl rfl hal; exact ⟨τ, e, i⟩
  | subscribe t k => obtain ⟨τ, e, i, -⟩ := other_ok H rfl rfl hal; exact ⟨τ, e, i⟩
  | unsubscribe s => obtain ⟨τ, e, i, -⟩ := other_ok H rfl rfl hal; exact ⟨τ, e, i⟩

theorem step_ub {σ : St} {h : List Act} {a : Act} (H : Inv σ h) (hal : ¬Allowed h a) : step σ a = .ub := by
  have dead : Dead h → σ.alive = false := by
    intro hd
    cases h : σ.alive with
    | false => rfl
    | true => exact absurd hd (H.alive.1 h)
  cases a with
  | init l => simp [step, dead (Classical.not_not.1 hal)]
  | deinit =>
    by_cases hd : Dead h
    · simp [step, dead hd]
    · have hl : ∀ l, lastCall h ≠ some (.init l) := fun l e => hal ⟨hd, l, e⟩
      simp [step, H.alive.2 hd, tearDown, (H.down hl).1, Bus.deleteSubscriber]
  | destroy => simp [step, dead (Classical.not_not.1 hal)]
  | message m =>
    have hd : Dead h := Classical.byContradiction (fun hn => hal (fun h => absurd h hn))
    simp only [step]
    rw [callAll_dead (dead hd), if_neg (fun e => hal (fun _ => (H.calls m).symm.trans e))]
  | subscribe t k => exact absurd trivial hal
  | unsubscribe s => exact absurd trivial hal

theorem inv_create {ident : Str} {b : Nat} {server client : Bool} {addr : Bool → Str} {w : World} (hw : Neat w b) :
    Inv (create ident b server client addr w) [] := by
  have none : ∀ s, (create ident b server client addr w).mine s = false := by
    intro s; simp [St.mine, create, hw.other s]
  refine ⟨⟨?_, ?_, ?_, ?_, ?_, ?_, ?_, ?_, ?_, ?_, ?_, ?_, ?_⟩, ⟨hw.old, hw.once, ?_, fun s _ hm => ?_⟩, Nat.le_refl _, fun l hl => ?_,
    fun _ => ⟨rfl, rfl, fun _ _ => rfl⟩, ?_⟩
  any_goals simp [create]
  · rw [List.filter_eq_nil_iff.2 (fun s _ => by simpa using hw.other s)]; rfl
  · rw [none s] at hm; cases hm
  · simp [lastCall] at hl
  · simp [Dead]

/-- What a history does: defined exactly when it is safe, and then the invariant holds. -/
theorem exec_char {σ : St} (H : Inv σ []) (h : List Act) :
    (Safe h → ∃ τ, exec σ h = .to τ ∧ Inv τ h) ∧ (¬Safe h → exec σ h = .ub) := by
  induction h using snoc_rec with
  | h0 => exact ⟨fun _ => ⟨σ, rfl, H⟩, fun hn => absurd safe_nil hn⟩
  | h1 h a ih =>
    rw [exec_snoc, safe_snoc]
    by_cases hs : Safe h
    · obtain ⟨τ, e, i⟩ := ih.1 hs
      rw [e]
      simp only [R.andThen]
      refine ⟨fun hh => step_ok i hh.2, fun hh => step_ub i (fun ha => hh ⟨hs, ha⟩)⟩
    · rw [ih.2 hs]
      exact ⟨fun hh => absurd hh.1 hs, fun _ => rfl⟩

end LP.LinkLife
