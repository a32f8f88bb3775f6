import Verif.Lemma.LinkHistory
/-!
# A link that is initialised again
-/
namespace LP.LinkLife
open LP.Bus (World BMsg)
open LP.Link (Role)

theorem open_same (σ : St) (l : Luck) (r : Role) (p : Bool) : (σ.open' l r p).context = σ.context ∧ (σ.open' l r p).contexts = σ.contexts := by
  unfold St.open'
  split
  · rename_i h; exact ⟨rfl, rfl⟩
  · split <;> exact ⟨rfl, rfl⟩

theorem bind_same (σ : St) (l : Luck) (r : Role) (p : Bool) (a : Str) :
    (σ.bind l r p a).context = σ.context ∧ (σ.bind l r p a).contexts = σ.contexts ∧ (σ.bind l r p a).ptr = σ.ptr ∧ (σ.bind l r p a).next = σ.next := by
  unfold St.bind
  split
  · exact ⟨rfl, rfl, rfl, rfl⟩
  · split <;> exact ⟨rfl, rfl, rfl, rfl⟩

theorem serve_same (σ : St) (l : Luck) : (σ.serve l).context = σ.context ∧ (σ.serve l).contexts = σ.contexts := by
  unfold St.serve
  split
  · simp [open_same, bind_same]
  · exact ⟨rfl, rfl⟩

theorem dial_same (σ : St) (l : Luck) : (σ.dial l).context = σ.context ∧ (σ.dial l).contexts = σ.contexts := by
  unfold St.dial
  split
  · simp [open_same]
  · exact ⟨rfl, rfl⟩

theorem wired_context (σ : St) (l : Luck) : (wired σ l).context.isSome = l.ctx ∧ (wired σ l).contexts.length = σ.contexts.length + l.ctx.toNat ∧
    (σ.contexts = [] → (wired σ l).contexts = (wired σ l).context.toList) := by
  simp only [wired, dial_same, serve_same]
  unfold St.newContext
  split
  · rename_i h; simp [h]
  · rename_i h; simp [h]

/-- A history from a state onwards: one step, then the rest. -/
theorem exec_cons {σ τ : St} {a : Act} {as : List Act} (h : exec σ (a :: as) = .to τ) : ∃ υ, step σ a = .to υ ∧ exec υ as = .to τ := by
  simp only [exec] at h
  cases e : step σ a with
  | ub => rw [e] at h; cases h
  | hangs => rw [e] at h; cases h
  | to υ => rw [e] at h; exact ⟨υ, rfl, h⟩

theorem allowed_of_step {σ τ : St} {p : List Act} {a : Act} (H : Inv σ p) (h : step σ a = .to τ) : Allowed p a := by
  refine Classical.byContradiction (fun hn => ?_)
  rw [step_ub H hn] at h; cases h

theorem inv_of_step {σ τ : St} {p : List Act} {a : Act} (H : Inv σ p) (h : step σ a = .to τ) : Inv τ (p ++ [a]) := by
  obtain ⟨υ, e, i⟩ := step_ok H (allowed_of_step H h)
  rw [h] at e; cases e; exact i

theorem same_of_step {σ τ : St} {p : List Act} {a : Act} (H : Inv σ p) (h : step σ a = .to τ) (h1 : a.isInit = false) (h2 : a.isDeinit = false) :
    Same σ τ := by
  obtain ⟨υ, e, -, k⟩ := other_ok H h1 h2 (allowed_of_step H h)
  rw [h] at e; cases e; exact k

theorem inv_of_exec {σ τ : St} {p h : List Act} (H : Inv σ p) (he : exec σ h = .to τ) : Inv τ (p ++ h) := by
  induction h generalizing σ p with
  | nil => cases he; simpa using H
  | cons a as ih =>
    obtain ⟨υ, e1, e2⟩ := exec_cons he
    simpa using ih (inv_of_step H e1) e2

theorem contexts_left {σ τ : St} {p h : List Act} (H : Inv σ p) (he : exec σ h = .to τ) :
    τ.contexts.length + σ.context.isSome.toNat = σ.contexts.length + contextsLeft σ.context.isSome h := by
  induction h generalizing σ p with
  | nil => cases he; rfl
  | cons a as ih =>
    obtain ⟨υ, e1, e2⟩ := exec_cons he
    have ih := ih (inv_of_step H e1) e2
    have other : a.isInit = false → a.isDeinit = false → contextsLeft σ.context.isSome (a :: as) = contextsLeft σ.context.isSome as →
        τ.contexts.length + σ.context.isSome.toNat = σ.contexts.length + contextsLeft σ.context.isSome (a :: as) := by
      intro h1 h2 e
      have k := same_of_step H e1 h1 h2
      rw [k.context, k.contexts] at ih
      rw [e]; exact ih
    cases a with
    | init l =>
      obtain ⟨υ', e, -, k, -⟩ := init_ok H (allowed_of_step H e1) l
      rw [e1] at e; cases e
      obtain ⟨w1, w2, -⟩ := wired_context σ l
      rw [k.context, k.contexts, w1, w2] at ih
      simp only [contextsLeft]; omega
    | deinit =>
      obtain ⟨hd, l, hl⟩ := allowed_of_step H e1
      obtain ⟨υ', e, i, -, hc, -⟩ := deinit_ok H hd hl
      rw [e1] at e; cases e
      have hn := (i.down (by simp [lastCall_snoc, Act.isInit, Act.isDeinit])).2.1
      rw [hn] at ih
      simp only [Option.isSome_none, Bool.toNat_false] at ih
      simp only [contextsLeft]; omega
    | destroy => exact other rfl rfl rfl
    | message m => exact other rfl rfl rfl
    | subscribe t k => exact other rfl rfl rfl
    | unsubscribe s => exact other rfl rfl rfl

/-! ## An address that stays taken -/

/-- Socket `i` is open and bound to `a`. -/
def Occ (a : Str) (i : Nat) (σ : St) : Prop := i < σ.next ∧ ∃ s ∈ σ.socks, s.id = i ∧ s.addr = some a

theorem occ_open {a : Str} {i : Nat} {σ : St} (h : Occ a i σ) (l : Luck) (r : Role) (p : Bool) : Occ a i (σ.open' l r p) ∧
    (σ.open' l r p).ptr r p ≠ some i ∧ ∀ r' p', σ.ptr r' p' ≠ some i → (σ.open' l r p).ptr r' p' ≠ some i := by
  obtain ⟨hn, s, hs, e, ea⟩ := h
  unfold St.open'
  split
  · refine ⟨⟨hn, s, hs, e, ea⟩, by simp [St.point], fun r' p' hh => ?_⟩
    simp only [St.point]; split
    · simp
    · exact hh
  · split
    · refine ⟨⟨Nat.lt_succ_of_lt hn, s, List.mem_append_left _ hs, e, ea⟩, by simp [St.point]; omega, fun r' p' hh => ?_⟩
      simp only [St.point]; split
      · simp; omega
      · exact hh
    · refine ⟨⟨hn, s, hs, e, ea⟩, by simp [St.point], fun r' p' hh => ?_⟩
      simp only [St.point]; split
      · simp
      · exact hh

theorem occ_bind {a : Str} {i : Nat} {σ : St} (h : Occ a i σ) (l : Luck) (r : Role) (p : Bool) (b : Str) (hp : σ.ptr r p ≠ some i) :
    Occ a i (σ.bind l r p b) := by
  obtain ⟨hn, s, hs, e, ea⟩ := h
  unfold St.bind
  split
  · exact ⟨hn, s, hs, e, ea⟩
  · rename_i j hj
    split
    · refine ⟨hn, s, List.mem_map.2 ⟨s, hs, ?_⟩, e, ea⟩
      rw [if_neg (fun hh => hp (by rw [hj, ← hh, e]))]
    · exact ⟨hn, s, hs, e, ea⟩

theorem occ_newContext {a : Str} {i : Nat} {σ : St} (h : Occ a i σ) (l : Luck) : Occ a i (σ.newContext l) ∧ (σ.newContext l).ptr = σ.ptr := by
  obtain ⟨hn, s, hs, e, ea⟩ := h
  unfold St.newContext
  split
  · exact ⟨⟨Nat.lt_succ_of_lt hn, s, hs, e, ea⟩, rfl⟩
  · exact ⟨⟨hn, s, hs, e, ea⟩, rfl⟩

/-- Initialising leaves the address taken, and no pointer of the server role leads to the old socket. -/
theorem occ_wired {a : Str} {i : Nat} {σ : St} (h : Occ a i σ) (l : Luck) (hc : ∀ p, σ.ptr .client p ≠ some i)
    (hs : σ.server = true ∨ ∀ p, σ.ptr .server p ≠ some i) :
    Occ a i (wired σ l) ∧ ∀ r p, (wired σ l).ptr r p ≠ some i := by
  obtain ⟨h0, e0⟩ := occ_newContext h l
  have k0 := kept_newContext σ l
  have h1 : Occ a i ((σ.newContext l).serve l) ∧ ∀ r p, ((σ.newContext l).serve l).ptr r p ≠ some i := by
    unfold St.serve
    split
    · obtain ⟨o1, x1, y1⟩ := occ_open h0 l .server true
      have o2 := occ_bind o1 l .server true ((σ.newContext l).addr true) x1
      obtain ⟨o3, x3, y3⟩ := occ_open o2 l .server false
      have o4 := occ_bind o3 l .server false ((σ.newContext l).addr false) x3
      refine ⟨o4, fun r p => ?_⟩
      rw [(bind_same _ _ _ _ _).2.2.1]
      cases r with
      | server =>
        cases p with
        | false => exact x3
        | true => exact y3 _ _ (by rw [(bind_same _ _ _ _ _).2.2.1]; exact x1)
      | client => exact y3 _ _ (by rw [(bind_same _ _ _ _ _).2.2.1]; exact y1 _ _ (by rw [e0]; exact hc p))
    · rename_i hn
      refine ⟨h0, fun r p => ?_⟩
      rw [e0]
      cases r with
      | server => exact hs.resolve_left (by rw [← k0.server]; exact hn) p
      | client => exact hc p
  show Occ a i (((σ.newContext l).serve l).dial l) ∧ ∀ r p, (((σ.newContext l).serve l).dial l).ptr r p ≠ some i
  unfold St.dial
  split
  · obtain ⟨o1, x1, y1⟩ := occ_open h1.1 l .client true
    obtain ⟨o2, x2, y2⟩ := occ_open o1 l .client false
    exact ⟨o2, fun r p => y2 r p (y1 r p (h1.2 r p))⟩
  · exact h1

/-- The address is taken by a socket no pointer leads to. -/
def Stuck (a : Str) (σ : St) : Prop := ∃ i, Occ a i σ ∧ ∀ r p, σ.ptr r p ≠ some i

theorem Same.occ {a : Str} {i : Nat} {σ τ : St} (k : Same σ τ) (h : Occ a i σ) : Occ a i τ := by
  unfold Occ; rw [k.next, k.socks]; exact h

theorem stuck_exec {a : Str} {σ τ : St} {p h : List Act} (H : Inv σ p) (hs : Stuck a σ) (he : exec σ h = .to τ) : Stuck a τ := by
  induction h generalizing σ p with
  | nil => cases he; exact hs
  | cons b as ih =>
    obtain ⟨υ, e1, e2⟩ := exec_cons he
    refine ih (inv_of_step H e1) ?_ e2
    obtain ⟨i, ho, hp⟩ := hs
    have other : b.isInit = false → b.isDeinit = false → Stuck a υ := by
      intro h1 h2
      have k := same_of_step H e1 h1 h2
      exact ⟨i, k.occ ho, by rw [k.ptr]; exact hp⟩
    cases b with
    | init l =>
      obtain ⟨υ', e, -, k, -⟩ := init_ok H (allowed_of_step H e1) l
      rw [e1] at e; cases e
      obtain ⟨o, q⟩ := occ_wired ho l (hp _) (.inr (hp _))
      exact ⟨i, k.occ o, by rw [k.ptr]; exact q⟩
    | deinit =>
      obtain ⟨hd, l, hl⟩ := allowed_of_step H e1
      obtain ⟨υ', e, iv, -, -, -, t, -⟩ := deinit_ok H hd hl
      rw [e1] at e; cases e
      have hn := (iv.down (by simp [lastCall_snoc, Act.isInit, Act.isDeinit])).2.2
      obtain ⟨-, s, hm, es, ea⟩ := ho
      have := t s hm (by rw [es]; exact hp)
      exact ⟨i, ⟨es ▸ iv.z.ids s this, s, this, es, ea⟩, fun r p => by rw [hn]; simp⟩
    | destroy => exact other rfl rfl
    | message m => exact other rfl rfl
    | subscribe t k => exact other rfl rfl
    | unsubscribe s => exact other rfl rfl

theorem Stuck.unbound {a : Str} {σ : St} (z : ZI σ (fun _ _ => True)) (h : Stuck a σ) (p : Bool) : ¬σ.bound p a := by
  rintro ⟨s, hs, e, ea⟩
  obtain ⟨i, ⟨-, s', hs', e', ea'⟩, hp⟩ := h
  exact hp .server p (by rw [e, z.alone s hs s' hs' a ea ea', e'])

theorem same_exec {σ τ : St} {p h : List Act} (H : Inv σ p) (hm : ∀ a ∈ h, a.isInit = false ∧ a.isDeinit = false) (he : exec σ h = .to τ) :
    Same σ τ := by
  induction h generalizing σ p with
  | nil => cases he; exact ⟨rfl, rfl, rfl, rfl, rfl, rfl, rfl, rfl, rfl, rfl⟩
  | cons b as ih =>
    obtain ⟨υ, e1, e2⟩ := exec_cons he
    have k := same_of_step H e1 (hm b List.mem_cons_self).1 (hm b List.mem_cons_self).2
    have k2 := ih (inv_of_step H e1) (fun a ha => hm a (List.mem_cons_of_mem _ ha)) e2
    exact ⟨k2.ident.trans k.ident, k2.bus.trans k.bus, k2.server.trans k.server, k2.client.trans k.client, k2.addr.trans k.addr,
      k2.context.trans k.context, k2.ptr.trans k.ptr, k2.contexts.trans k.contexts, k2.socks.trans k.socks, k2.next.trans k.next⟩

/-- The configuration of a link never changes. -/
theorem conf_exec {σ τ : St} {p h : List Act} (H : Inv σ p) (he : exec σ h = .to τ) :
    τ.ident = σ.ident ∧ τ.server = σ.server ∧ τ.client = σ.client ∧ τ.addr = σ.addr := by
  induction h generalizing σ p with
  | nil => cases he; exact ⟨rfl, rfl, rfl, rfl⟩
  | cons b as ih =>
    obtain ⟨υ, e1, e2⟩ := exec_cons he
    have ih := ih (inv_of_step H e1) e2
    have other : b.isInit = false → b.isDeinit = false → υ.ident = σ.ident ∧ υ.server = σ.server ∧ υ.client = σ.client ∧ υ.addr = σ.addr := by
      intro h1 h2
      have k := same_of_step H e1 h1 h2
      exact ⟨k.ident, k.server, k.client, k.addr⟩
    have key : υ.ident = σ.ident ∧ υ.server = σ.server ∧ υ.client = σ.client ∧ υ.addr = σ.addr := by
      cases b with
      | init l =>
        obtain ⟨υ', e, -, k, -⟩ := init_ok H (allowed_of_step H e1) l
        rw [e1] at e; cases e
        have k' := kept_wired σ l
        exact ⟨k.ident.trans k'.ident, k.server.trans k'.server, k.client.trans k'.client, k.addr.trans k'.addr⟩
      | deinit =>
        obtain ⟨hd, l, hl⟩ := allowed_of_step H e1
        obtain ⟨υ', e, -, -, -, -, -, -, t1, -, t2, t3, t4⟩ := deinit_ok H hd hl
        rw [e1] at e; cases e; exact ⟨t1, t2, t3, t4⟩
      | destroy => exact other rfl rfl
      | message m => exact other rfl rfl
      | subscribe t k => exact other rfl rfl
      | unsubscribe s => exact other rfl rfl
    exact ⟨ih.1.trans key.1, ih.2.1.trans key.2.1, ih.2.2.1.trans key.2.2.1, ih.2.2.2.trans key.2.2.2⟩

/-- A lucky `Initialize` of a link with no sockets. -/
theorem wired_lucky {σ : St} {l : Luck} (hn : σ.socks = []) (hp : ∀ r p, σ.ptr r p = none) (ha : σ.addr true ≠ σ.addr false)
    (hc : l.ctx = true) (hm : ∀ r p, l.made r p = true) (hf : ∀ p, l.free (σ.addr p) = true) :
    (σ.server = true → ∀ p, (wired σ l).bound p (σ.addr p)) ∧
    (σ.client = true → ∀ p, ∃ s ∈ (wired σ l).socks, (wired σ l).ptr .client p = some s.id) ∧
    (wired σ l).outlets.length = σ.server.toNat + σ.client.toNat := by
  have e1 : σ.newContext l = { σ with context := some σ.next, contexts := σ.contexts ++ [σ.next], next := σ.next + 1 } := by
    simp [St.newContext, hc]
  simp only [wired, e1]
  cases hs : σ.server <;> cases hk : σ.client <;>
    simp [St.serve, St.dial, St.open', St.bind, St.point, St.bound, St.outlets, hn, hm, hf, hp, ha]

/-! ## Calls that alternate -/

theorem lastCall_cons (a : Act) (h : List Act) : lastCall (a :: h) = (lastCall h).or (if a.isInit || a.isDeinit then some a else none) := by
  unfold lastCall
  rw [List.reverse_cons, List.find?_append]
  congr 1
  simp only [List.find?_cons, List.find?_nil]
  cases a.isInit || a.isDeinit <;> rfl

theorem alternating_count {up : Bool} {h : List Act} (ha : Alternating up h) :
    h.countP Act.isInit + up.toNat = h.countP Act.isDeinit + (((lastCall h).map Act.isInit).getD up).toNat := by
  induction h generalizing up with
  | nil => simp [lastCall]
  | cons a h ih =>
    rw [lastCall_cons]
    cases a with
    | init l =>
      have := ih ha.2
      rw [ha.1]
      cases hl : lastCall h <;> rw [hl] at this <;> simp [List.countP_cons, Act.isInit, Act.isDeinit] at this ⊢ <;> omega
    | deinit =>
      have := ih ha.2
      rw [ha.1]
      cases hl : lastCall h <;> rw [hl] at this <;> simp [List.countP_cons, Act.isInit, Act.isDeinit] at this ⊢ <;> omega
    | _ =>
      have := ih (up := up) ha
      cases hl : lastCall h <;> rw [hl] at this <;> simp [Act.isInit, Act.isDeinit] at this ⊢ <;> omega

theorem alternating_surplus {h : List Act} (ha : Alternating false h) (hl : ∀ l, lastCall h ≠ some (.init l)) : surplus h = 0 := by
  have := alternating_count ha
  have e : ((lastCall h).map Act.isInit).getD false = false := by
    cases hx : lastCall h with
    | none => rfl
    | some a =>
      cases a with
      | init l => exact absurd hx (hl l)
      | _ => rfl
  rw [e] at this
  simp only [Bool.toNat_false] at this
  unfold surplus; omega

/-- Every ZMQ object belongs to the context in use. -/
structure Own (σ : St) : Prop where
  socks : ∀ s ∈ σ.socks, σ.context = some s.ctx
  contexts : σ.contexts = σ.context.toList

theorem own_open {σ : St} (h : ∀ s ∈ σ.socks, σ.context = some s.ctx) (l : Luck) (r : Role) (p : Bool) :
    ∀ s ∈ (σ.open' l r p).socks, (σ.open' l r p).context = some s.ctx := by
  intro s hs
  rw [(open_same _ _ _ _).1]
  unfold St.open' at hs
  split at hs
  · exact h s hs
  · rename_i c hc
    split at hs
    · rcases List.mem_append.1 hs with hs | hs
      · exact h s hs
      · simp only [List.mem_singleton] at hs; subst hs; exact hc
    · exact h s hs

theorem own_bind {σ : St} (h : ∀ s ∈ σ.socks, σ.context = some s.ctx) (l : Luck) (r : Role) (p : Bool) (a : Str) :
    ∀ s ∈ (σ.bind l r p a).socks, (σ.bind l r p a).context = some s.ctx := by
  intro s hs
  rw [(bind_same _ _ _ _ _).1]
  unfold St.bind at hs
  split at hs
  · exact h s hs
  · split at hs
    · obtain ⟨s', hs', rfl⟩ := List.mem_map.1 hs
      have := h s' hs'
      split <;> exact this
    · exact h s hs

theorem own_wired {σ : St} (h : Own σ) (hc : σ.context = none) (l : Luck) : Own (wired σ l) := by
  have hnil : σ.socks = [] := by
    cases e : σ.socks with
    | nil => rfl
    | cons s ss => have := h.socks s (by rw [e]; exact List.mem_cons_self); rw [hc] at this; cases this
  have h0 : ∀ s ∈ (σ.newContext l).socks, (σ.newContext l).context = some s.ctx := by
    have : (σ.newContext l).socks = [] := by
      unfold St.newContext; split <;> exact hnil
    rw [this]; simp
  have h1 : ∀ s ∈ ((σ.newContext l).serve l).socks, ((σ.newContext l).serve l).context = some s.ctx := by
    unfold St.serve
    split
    · exact own_bind (own_open (own_bind (own_open h0 _ _ _) _ _ _ _) _ _ _) _ _ _ _
    · exact h0
  refine ⟨?_, (wired_context σ l).2.2 (by rw [h.contexts, hc]; rfl)⟩
  show ∀ s ∈ (((σ.newContext l).serve l).dial l).socks, (((σ.newContext l).serve l).dial l).context = some s.ctx
  unfold St.dial
  split
  · exact own_open (own_open h1 _ _ _) _ _ _
  · exact h1

theorem own_exec {σ τ : St} {p h : List Act} {up : Bool} (H : Inv σ p) (ho : Own σ) (hu : up = false → σ.context = none)
    (ha : Alternating up h) (he : exec σ h = .to τ) : Own τ := by
  induction h generalizing σ p up with
  | nil => cases he; exact ho
  | cons b as ih =>
    obtain ⟨υ, e1, e2⟩ := exec_cons he
    have other : b.isInit = false → b.isDeinit = false → Alternating up as → Own τ := by
      intro h1 h2 ha
      have k := same_of_step H e1 h1 h2
      exact ih (inv_of_step H e1) ⟨by rw [k.socks, k.context]; exact ho.socks, by rw [k.contexts, k.context]; exact ho.contexts⟩
        (fun h => by rw [k.context]; exact hu h) ha e2
    cases b with
    | init l =>
      obtain ⟨υ', e, -, k, -⟩ := init_ok H (allowed_of_step H e1) l
      rw [e1] at e; cases e
      have w := own_wired ho (hu ha.1) l
      exact ih (inv_of_step H e1) ⟨by rw [k.socks, k.context]; exact w.socks, by rw [k.contexts, k.context]; exact w.contexts⟩
        (fun h => by cases h) ha.2 e2
    | deinit =>
      obtain ⟨hd, l, hl⟩ := allowed_of_step H e1
      obtain ⟨υ', e, iv, -, hc, t1, -, t2, -⟩ := deinit_ok H hd hl
      rw [e1] at e; cases e
      have hn := (iv.down (by simp [lastCall_snoc, Act.isInit, Act.isDeinit])).2.1
      refine ih iv ⟨fun s hs => absurd (ho.socks s (t1 s hs)) (t2 s hs), ?_⟩ (fun _ => hn) ha.2 e2
      rw [hn]
      rw [ho.contexts] at hc
      have : υ.contexts.length = 0 := by
        cases hx : σ.context <;> rw [hx] at hc <;> simp at hc <;> simp [hc]
      exact List.eq_nil_of_length_eq_zero this
    | destroy => exact other rfl rfl ha
    | message m => exact other rfl rfl ha
    | subscribe t k => exact other rfl rfl ha
    | unsubscribe s => exact other rfl rfl ha

end LP.LinkLife
