import Verif.Spec.LinkLife
/-!
# Invariants of a link under any history of calls
-/
namespace LP.LinkLife
open LP.Bus (World BMsg)
open LP.Link (Role)

/-- Everything the socket functions leave alone. -/
structure Kept (σ τ : St) : Prop where
  ident : τ.ident = σ.ident
  bus : τ.bus = σ.bus
  server : τ.server = σ.server
  client : τ.client = σ.client
  addr : τ.addr = σ.addr
  world : τ.world = σ.world
  handle : τ.handle = σ.handle
  alive : τ.alive = σ.alive
  sent : τ.sent = σ.sent

theorem Kept.refl (σ : St) : Kept σ σ := ⟨rfl, rfl, rfl, rfl, rfl, rfl, rfl, rfl, rfl⟩

theorem Kept.trans {σ τ υ : St} (h : Kept σ τ) (g : Kept τ υ) : Kept σ υ :=
  ⟨g.ident.trans h.ident, g.bus.trans h.bus, g.server.trans h.server, g.client.trans h.client, g.addr.trans h.addr,
    g.world.trans h.world, g.handle.trans h.handle, g.alive.trans h.alive, g.sent.trans h.sent⟩

theorem kept_point (σ : St) (r : Role) (p : Bool) (x : Option Nat) : Kept σ (σ.point r p x) := ⟨rfl, rfl, rfl, rfl, rfl, rfl, rfl, rfl, rfl⟩

theorem kept_open (σ : St) (l : Luck) (r : Role) (p : Bool) : Kept σ (σ.open' l r p) := by
  unfold St.open'
  split
  · exact kept_point _ _ _ _
  · split <;> exact ⟨rfl, rfl, rfl, rfl, rfl, rfl, rfl, rfl, rfl⟩

theorem kept_bind (σ : St) (l : Luck) (r : Role) (p : Bool) (a : Str) : Kept σ (σ.bind l r p a) := by
  unfold St.bind
  split
  · exact .refl _
  · split
    · exact ⟨rfl, rfl, rfl, rfl, rfl, rfl, rfl, rfl, rfl⟩
    · exact .refl _

theorem kept_serve (σ : St) (l : Luck) : Kept σ (σ.serve l) := by
  unfold St.serve
  split
  · exact (((kept_open σ l _ _).trans (kept_bind _ _ _ _ _)).trans (kept_open _ _ _ _)).trans (kept_bind _ _ _ _ _)
  · exact .refl _

theorem kept_dial (σ : St) (l : Luck) : Kept σ (σ.dial l) := by
  unfold St.dial
  split
  · exact (kept_open σ l _ _).trans (kept_open _ _ _ _)
  · exact .refl _

theorem kept_newContext (σ : St) (l : Luck) : Kept σ (σ.newContext l) := by
  unfold St.newContext; split <;> exact ⟨rfl, rfl, rfl, rfl, rfl, rfl, rfl, rfl, rfl⟩

/-- The state in the middle of `Initialize`, before the subscriber is made. -/
abbrev wired (σ : St) (l : Luck) : St := ((σ.newContext l).serve l).dial l

theorem kept_wired (σ : St) (l : Luck) : Kept σ (wired σ l) :=
  ((kept_newContext σ l).trans (kept_serve _ _)).trans (kept_dial _ _)

/-- The ZMQ objects and the pointers to them; `P` tells which pointers belong to the present context. -/
structure ZI (σ : St) (P : Role → Bool → Prop) : Prop where
  point : ∀ r p i, P r p → σ.ptr r p = some i → ∃ s ∈ σ.socks, s.id = i ∧ σ.context = some s.ctx
  low : ∀ r p i, σ.ptr r p = some i → i < σ.next
  one : ∀ r p r' p' i, σ.ptr r p = some i → σ.ptr r' p' = some i → r = r' ∧ p = p'
  ids : ∀ s ∈ σ.socks, s.id < σ.next
  ctxs : ∀ s ∈ σ.socks, s.ctx < σ.next
  uniq : (σ.socks.map Sock.id).Nodup
  own : ∀ s ∈ σ.socks, σ.context = some s.ctx → ∃ r p, P r p ∧ σ.ptr r p = some s.id
  offS : σ.server = false → ∀ p, σ.ptr .server p = none
  offC : σ.client = false → ∀ p, σ.ptr .client p = none
  alone : ∀ s ∈ σ.socks, ∀ s' ∈ σ.socks, ∀ a, s.addr = some a → s'.addr = some a → s.id = s'.id
  held : ∀ c, σ.context = some c → c ∈ σ.contexts
  clow : ∀ c ∈ σ.contexts, c < σ.next
  conce : σ.contexts.Nodup

theorem zi_newContext {σ : St} {l : Luck} {P : Role → Bool → Prop} (h : ZI σ P) : ZI (σ.newContext l) (fun _ _ => False) := by
  unfold St.newContext
  split
  · refine ⟨fun _ _ _ hp => hp.elim, fun r p i hi => ?_, h.one, fun s hs => ?_, fun s hs => ?_, h.uniq, fun s hs hc => ?_,
      h.offS, h.offC, h.alone, fun c hc => ?_, fun c hc => ?_, ?_⟩
    · have := h.low r p i hi; show i < σ.next + 1; omega
    · have := h.ids s hs; show s.id < σ.next + 1; omega
    · have := h.ctxs s hs; show s.ctx < σ.next + 1; omega
    · have := h.ctxs s hs
      injection hc with hc; omega
    · injection hc with hc
      subst hc; simp
    · show c < σ.next + 1
      simp only [List.mem_append, List.mem_singleton] at hc
      rcases hc with hc | rfl
      · have := h.clow c hc; omega
      · omega
    · show (σ.contexts ++ [σ.next]).Nodup
      rw [List.nodup_append]
      refine ⟨h.conce, by simp, fun a ha b hb => ?_⟩
      have := h.clow a ha
      simp only [List.mem_singleton] at hb
      omega
  · exact ⟨fun _ _ _ hp => hp.elim, h.low, h.one, h.ids, h.ctxs, h.uniq, (fun s hs hc => by cases hc), h.offS, h.offC, h.alone,
      (fun c hc => by cases hc), h.clow, h.conce⟩

theorem zi_point {σ : St} {r : Role} {p : Bool} {P : Role → Bool → Prop} (h : ZI σ P) (hP : ¬P r p):
    ZI (σ.point r p none) (fun r' p' => P r' p' ∨ (r' = r ∧ p' = p)) := by
  refine ⟨fun r' p' i hp hi => ?_, fun r' p' i hi => ?_, fun r' p' r'' p'' i hi hj => ?_, h.ids, h.ctxs, h.uniq, fun s hs hc => ?_,
    fun ho p' => ?_, fun ho p' => ?_, h.alone, h.held, h.clow, h.conce⟩
  · simp only [St.point] at hi
    split at hi
    · cases hi
    · rename_i hn
      exact h.point r' p' i (hp.resolve_right hn) hi
  · simp only [St.point] at hi
    split at hi
    · cases hi
    · exact h.low r' p' i hi
  · simp only [St.point] at hi hj
    split at hi
    · cases hi
    · split at hj
      · cases hj
      · exact h.one _ _ _ _ _ hi hj
  · obtain ⟨r', p', hp, hi⟩ := h.own s hs hc
    refine ⟨r', p', .inl hp, ?_⟩
    simp only [St.point]
    rw [if_neg]
    · exact hi
    · rintro ⟨rfl, rfl⟩; exact hP hp
  · simp only [St.point]; split
    · rfl
    · exact h.offS ho p'
  · simp only [St.point]; split
    · rfl
    · exact h.offC ho p'

/-- The role is enabled. -/
def St.on (σ : St) : Role → Bool
  | .server => σ.server
  | .client => σ.client

theorem zi_open {σ : St} {l : Luck} {r : Role} {p : Bool} {P : Role → Bool → Prop} (h : ZI σ P) (hP : ¬P r p) (hr : σ.on r = true) :
    ZI (σ.open' l r p) (fun r' p' => P r' p' ∨ (r' = r ∧ p' = p)) := by
  unfold St.open'
  split
  · exact zi_point h hP
  · rename_i c hc
    split
    · have hc' : c < σ.next := h.clow c (h.held c hc)
      refine ⟨fun r' p' i hp hi => ?_, fun r' p' i hi => ?_, fun r' p' r'' p'' i hi hj => ?_, fun s hs => ?_, fun s hs => ?_, ?_,
        fun s hs hc => ?_, fun ho p' => ?_, fun ho p' => ?_, fun s hs s' hs' a ha ha' => ?_, h.held, fun c hc => ?_, h.conce⟩
      · simp only [St.point] at hi ⊢
        split at hi
        · injection hi with hi
          exact ⟨⟨σ.next, c, none⟩, by simp, hi, hc⟩
        · rename_i hn
          obtain ⟨s, hs, e⟩ := h.point r' p' i (hp.resolve_right hn) hi
          exact ⟨s, by simp [hs], e⟩
      · simp only [St.point] at hi ⊢
        split at hi
        · injection hi with hi; omega
        · have := h.low r' p' i hi; omega
      · simp only [St.point] at hi hj
        split at hi <;> split at hj
        · rename_i a b; exact ⟨a.1.trans b.1.symm, a.2.trans b.2.symm⟩
        · injection hi with hi; have := h.low _ _ _ hj; omega
        · injection hj with hj; have := h.low _ _ _ hi; omega
        · exact h.one _ _ _ _ _ hi hj
      · simp only [List.mem_append, List.mem_singleton] at hs ⊢
        rcases hs with hs | rfl
        · have := h.ids s hs; omega
        · simp
      · simp only [List.mem_append, List.mem_singleton] at hs ⊢
        rcases hs with hs | rfl
        · have := h.ctxs s hs; omega
        · simp only; omega
      · simp only [List.map_append, List.map_cons, List.map_nil]
        rw [List.nodup_append]
        refine ⟨h.uniq, by simp, fun a ha b hb => ?_⟩
        obtain ⟨s, hs, rfl⟩ := List.mem_map.1 ha
        have := h.ids s hs
        simp only [List.mem_singleton] at hb
        omega
      · simp only [St.point, List.mem_append, List.mem_singleton] at hs hc ⊢
        rcases hs with hs | rfl
        · obtain ⟨r', p', hp, hi⟩ := h.own s hs hc
          refine ⟨r', p', .inl hp, ?_⟩
          rw [if_neg]
          · exact hi
          · rintro ⟨rfl, rfl⟩; exact hP hp
        · exact ⟨r, p, .inr ⟨rfl, rfl⟩, by simp⟩
      · simp only [St.point] at ho ⊢
        rw [if_neg]
        · exact h.offS ho p'
        · rintro ⟨rfl, -⟩; simp only [St.on] at hr; rw [hr] at ho; cases ho
      · simp only [St.point] at ho ⊢
        rw [if_neg]
        · exact h.offC ho p'
        · rintro ⟨rfl, -⟩; simp only [St.on] at hr; rw [hr] at ho; cases ho
      · simp only [List.mem_append, List.mem_singleton] at hs hs'
        rcases hs with hs | rfl
        · rcases hs' with hs' | rfl
          · exact h.alone s hs s' hs' a ha ha'
          · cases ha'
        · cases ha
      · have := h.clow c hc; show c < σ.next + 1; omega
    · exact zi_point h hP

theorem zi_bind {σ : St} {l : Luck} {r : Role} {p : Bool} {a : Str} {P : Role → Bool → Prop} (h : ZI σ P) : ZI (σ.bind l r p a) P := by
  unfold St.bind
  split
  · exact h
  · rename_i i hi
    split
    · rename_i hb
      simp only [Bool.and_eq_true, List.all_eq_true, bne_iff_ne] at hb
      have key : ∀ s ∈ σ.socks.map (fun s => if s.id = i then { s with addr := some a } else s),
          ∃ s' ∈ σ.socks, s.id = s'.id ∧ s.ctx = s'.ctx ∧ (s.addr = s'.addr ∨ s.id = i ∧ s.addr = some a) := by
        intro s hs
        obtain ⟨s', hs', rfl⟩ := List.mem_map.1 hs
        refine ⟨s', hs', ?_⟩
        split
        · rename_i e; exact ⟨rfl, rfl, .inr ⟨e, rfl⟩⟩
        · exact ⟨rfl, rfl, .inl rfl⟩
      have back : ∀ s ∈ σ.socks, ∃ s' ∈ σ.socks.map (fun s => if s.id = i then { s with addr := some a } else s),
          s'.id = s.id ∧ s'.ctx = s.ctx := by
        intro s hs
        refine ⟨_, List.mem_map.2 ⟨s, hs, rfl⟩, ?_⟩
        split <;> exact ⟨rfl, rfl⟩
      refine ⟨fun r' p' j hp hj => ?_, h.low, h.one, fun s hs => ?_, fun s hs => ?_, ?_, fun s hs hc => ?_, h.offS, h.offC,
        fun s hs s' hs' b hb1 hb2 => ?_, h.held, h.clow, h.conce⟩
      · obtain ⟨s, hs, e1, e2⟩ := h.point r' p' j hp hj
        obtain ⟨s', hs', e3, e4⟩ := back s hs
        exact ⟨s', hs', e3.trans e1, by rw [e4]; exact e2⟩
      · obtain ⟨s', hs', e, -⟩ := key s hs
        rw [e]; exact h.ids s' hs'
      · obtain ⟨s', hs', -, e, -⟩ := key s hs
        rw [e]; exact h.ctxs s' hs'
      · have : (σ.socks.map (fun s => if s.id = i then { s with addr := some a } else s)).map Sock.id = σ.socks.map Sock.id := by
          rw [List.map_map]
          apply List.map_congr_left
          intro s _
          simp only [Function.comp]
          split <;> rfl
        show (List.map Sock.id _).Nodup
        rw [this]; exact h.uniq
      · obtain ⟨s', hs', e1, e2, -⟩ := key s hs
        rw [e1]; rw [e2] at hc
        exact h.own s' hs' hc
      · obtain ⟨t, ht, e1, -, e2⟩ := key s hs
        obtain ⟨t', ht', e1', -, e2'⟩ := key s' hs'
        rcases e2 with e2 | ⟨e2, e3⟩
        · rcases e2' with e2' | ⟨e2', e3'⟩
          · rw [e1, e1']; exact h.alone t ht t' ht' b (e2 ▸ hb1) (e2' ▸ hb2)
          · rw [e3'] at hb2; injection hb2 with hb2; subst hb2
            exact absurd (e2 ▸ hb1) (hb.2 t ht)
        · rcases e2' with e2' | ⟨e2', e3'⟩
          · rw [e3] at hb1; injection hb1 with hb1; subst hb1
            exact absurd (e2' ▸ hb2) (hb.2 t' ht')
          · rw [e2, e2']
    · exact h

theorem ZI.weaken {σ : St} {P Q : Role → Bool → Prop} (h : ZI σ P) (h1 : ∀ r p, P r p → Q r p)
    (h2 : ∀ r p, Q r p → P r p ∨ σ.ptr r p = none) : ZI σ Q :=
  ⟨fun r p i hq hi => h.point r p i ((h2 r p hq).resolve_right (by rw [hi]; simp)) hi, h.low, h.one, h.ids, h.ctxs, h.uniq,
    fun s hs hc => by obtain ⟨r, p, hp, e⟩ := h.own s hs hc; exact ⟨r, p, h1 r p hp, e⟩, h.offS, h.offC, h.alone, h.held, h.clow, h.conce⟩

theorem zi_wired {σ : St} {l : Luck} {P : Role → Bool → Prop} (h : ZI σ P) : ZI (wired σ l) (fun _ _ => True) := by
  have h1 := zi_newContext (l := l) h
  have h2 : ZI ((σ.newContext l).serve l) (fun r _ => r = .server) := by
    unfold St.serve
    split
    · rename_i hs
      have a := zi_bind (l := l) (r := .server) (p := true) (a := (σ.newContext l).addr true)
        (zi_open (l := l) (r := .server) (p := true) h1 (fun h => h) hs)
      have b := zi_bind (l := l) (r := .server) (p := false) (a := (σ.newContext l).addr false)
        (zi_open (l := l) (r := .server) (p := false) a (by simp) (by
          have := (kept_open (σ.newContext l) l .server true).trans (kept_bind _ l .server true ((σ.newContext l).addr true))
          simp only [St.on]; rw [this.server]; exact hs))
      refine b.weaken (fun r p hp => ?_) (fun r p hp => .inl ?_)
      · rcases hp with (hp | hp) | hp
        · exact hp.elim
        · exact hp.1
        · exact hp.1
      · subst hp; cases p <;> simp
    · rename_i hs
      refine h1.weaken (fun _ _ h => h.elim) (fun r p hp => .inr ?_)
      subst hp; exact h1.offS (by simpa using hs) p
  unfold wired St.dial
  split
  · rename_i hc
    have a := zi_open (l := l) (r := .client) (p := false)
      (zi_open (l := l) (r := .client) (p := true) h2 (by simp) hc) (by simp) (by
        have := kept_open ((σ.newContext l).serve l) l .client true
        simp only [St.on]; rw [this.client]; exact hc)
    refine a.weaken (fun _ _ _ => trivial) (fun r p _ => .inl ?_)
    cases r <;> cases p <;> simp
  · rename_i hc
    refine h2.weaken (fun _ _ _ => trivial) (fun r p _ => ?_)
    cases r
    · exact .inl rfl
    · exact .inr (h2.offC (by simpa using hc) p)

/-- Closing one socket. -/
theorem close_ok {σ : St} (h : ZI σ (fun _ _ => True)) (r : Role) (p : Bool) :
    ∃ τ, close r p σ = .to τ ∧ ZI τ (fun _ _ => True) ∧ Kept σ τ ∧ τ.context = σ.context ∧ τ.contexts = σ.contexts ∧ τ.next = σ.next ∧
      τ.ptr r p = none ∧ (∀ r' p', σ.ptr r' p' = none → τ.ptr r' p' = none) ∧ (∀ s ∈ τ.socks, s ∈ σ.socks) ∧
      (∀ s ∈ σ.socks, (∀ r' p', σ.ptr r' p' ≠ some s.id) → s ∈ τ.socks) ∧
      (∀ r' p' i, τ.ptr r' p' = some i → σ.ptr r' p' = some i) := by
  unfold close
  cases hi : σ.ptr r p with
  | none => exact ⟨σ, rfl, h, .refl _, rfl, rfl, rfl, hi, fun _ _ h => h, fun _ h => h, fun _ h _ => h, fun _ _ _ h => h⟩
  | some i =>
    obtain ⟨s, hs, e1, e2⟩ := h.point r p i trivial hi
    simp only
    rw [if_pos (by simp only [List.any_eq_true, beq_iff_eq]; exact ⟨s, hs, e1⟩)]
    have hq : ∀ r' p', (({ σ with socks := σ.socks.filter (fun s => s.id != i) } : St).point r p none).ptr r' p' =
        if r' = r ∧ p' = p then none else σ.ptr r' p' := fun _ _ => rfl
    have hpt : ∀ r' p' j, (({ σ with socks := σ.socks.filter (fun s => s.id != i) } : St).point r p none).ptr r' p' = some j →
        σ.ptr r' p' = some j ∧ j ≠ i := by
      intro r' p' j hj
      rw [hq] at hj
      split at hj
      · cases hj
      · rename_i hn
        exact ⟨hj, fun e => hn (by subst e; exact h.one _ _ _ _ _ hj hi)⟩
    refine ⟨_, rfl, ⟨fun r' p' j _ hj => ?_, fun r' p' j hj => h.low r' p' j (hpt _ _ _ hj).1,
      fun r' p' r'' p'' j h1 h2 => h.one _ _ _ _ _ (hpt _ _ _ h1).1 (hpt _ _ _ h2).1, fun s hs => h.ids s (List.mem_filter.1 hs).1,
      fun s hs => h.ctxs s (List.mem_filter.1 hs).1, h.uniq.sublist (List.filter_sublist.map _), fun s hs hc => ?_, fun ho p' => ?_, fun ho p' => ?_,
      fun s hs s' hs' => h.alone s (List.mem_filter.1 hs).1 s' (List.mem_filter.1 hs').1, h.held, h.clow, h.conce⟩,
      ⟨rfl, rfl, rfl, rfl, rfl, rfl, rfl, rfl, rfl⟩, rfl, rfl, rfl, by rw [hq]; simp, fun r' p' hn => by rw [hq, hn]; simp,
      fun s hs => (List.mem_filter.1 hs).1, fun s hs hn => List.mem_filter.2 ⟨hs, ?_⟩, fun r' p' j hj => (hpt _ _ _ hj).1⟩
    · obtain ⟨hj, hn⟩ := hpt _ _ _ hj
      obtain ⟨s', hs', e3, e4⟩ := h.point r' p' j trivial hj
      exact ⟨s', List.mem_filter.2 ⟨hs', by simp [e3, hn]⟩, e3, e4⟩
    · obtain ⟨hs, hn⟩ := List.mem_filter.1 hs
      obtain ⟨r', p', -, hj⟩ := h.own s hs hc
      refine ⟨r', p', trivial, ?_⟩
      rw [hq, if_neg]
      · exact hj
      · rintro ⟨rfl, rfl⟩
        rw [hi] at hj; injection hj with hj
        simp [hj] at hn
    · rw [hq]; split
      · rfl
      · exact h.offS ho p'
    · rw [hq]; split
      · rfl
      · exact h.offC ho p'
    · have := hn r p
      rw [hi] at this
      simp only [bne_iff_ne, ne_eq]
      exact fun e => this (by rw [e])

/-- The second half of `Deinitialize`. -/
theorem shut_ok {σ : St} (h : ZI σ (fun _ _ => True)) (hc : σ.context ≠ none) :
    ∃ τ, ((((close .server true σ).andThen (close .server false)).andThen (close .client true)).andThen (close .client false)).andThen
        terminate = .to τ ∧ ZI τ (fun _ _ => True) ∧ Kept σ τ ∧ τ.context = none ∧ (∀ r p, τ.ptr r p = none) ∧
      τ.contexts.length + 1 = σ.contexts.length ∧ (∀ s ∈ τ.socks, s ∈ σ.socks) ∧
      (∀ s ∈ σ.socks, (∀ r p, σ.ptr r p ≠ some s.id) → s ∈ τ.socks) ∧ (∀ s ∈ τ.socks, σ.context ≠ some s.ctx) := by
  obtain ⟨c, hc⟩ := Option.ne_none_iff_exists'.1 hc
  obtain ⟨σ1, e1, z1, k1, c1, d1, n1, p1, q1, s1, t1, u1⟩ := close_ok h .server true
  obtain ⟨σ2, e2, z2, k2, c2, d2, n2, p2, q2, s2, t2, u2⟩ := close_ok z1 .server false
  obtain ⟨σ3, e3, z3, k3, c3, d3, n3, p3, q3, s3, t3, u3⟩ := close_ok z2 .client true
  obtain ⟨σ4, e4, z4, k4, c4, d4, n4, p4, q4, s4, t4, u4⟩ := close_ok z3 .client false
  have hnone : ∀ r p, σ4.ptr r p = none := by
    intro r p
    cases r <;> cases p
    · exact q4 _ _ (q3 _ _ p2)
    · exact q4 _ _ (q3 _ _ (q2 _ _ p1))
    · exact p4
    · exact q4 _ _ p3
  have hctx : σ4.context = some c := by rw [c4, c3, c2, c1, hc]
  have hno : ∀ s ∈ σ4.socks, s.ctx ≠ c := by
    intro s hs e
    obtain ⟨r, p, -, hp⟩ := z4.own s hs (by rw [hctx, e])
    rw [hnone] at hp; cases hp
  have hcon : σ4.contexts = σ.contexts := by rw [d4, d3, d2, d1]
  refine ⟨{ σ4 with context := none, contexts := σ4.contexts.filter (fun x => x != c) }, ?_, ?_, ?_, rfl, hnone, ?_, ?_, ?_, ?_⟩
  · rw [e1]; simp only [R.andThen]; rw [e2]; simp only; rw [e3]; simp only; rw [e4]; simp only [terminate]
    rw [hctx]; simp only
    rw [if_neg]
    simp only [List.any_eq_true, beq_iff_eq]
    rintro ⟨s, hs, e⟩
    exact hno s hs e
  · exact ⟨(fun r p i _ hi => by rw [show _ = none from hnone r p] at hi; cases hi), z4.low, z4.one, z4.ids, z4.ctxs, z4.uniq,
      (fun s _ hc => by cases hc), z4.offS, z4.offC, z4.alone, (fun c hc => by cases hc),
      fun x hx => z4.clow x (List.mem_filter.1 hx).1, z4.conce.sublist List.filter_sublist⟩
  · have := ((k1.trans k2).trans k3).trans k4
    exact ⟨this.ident, this.bus, this.server, this.client, this.addr, this.world, this.handle, this.alive, this.sent⟩
  · have hm : c ∈ σ4.contexts := z4.held c hctx
    have := z4.conce
    show (σ4.contexts.filter (fun x => x != c)).length + 1 = _
    rw [← hcon]
    have e : σ4.contexts.filter (fun x => x != c) = σ4.contexts.erase c := by
      rw [List.Nodup.erase_eq_filter this]
    rw [e, List.length_erase_of_mem hm]
    have : 0 < σ4.contexts.length := List.length_pos_of_mem hm
    omega
  · exact fun s hs => s1 s (s2 s (s3 s (s4 s hs)))
  · intro s hs hn
    have a1 := t1 s hs hn
    have b1 : ∀ r p, σ1.ptr r p ≠ some s.id := fun r p e => hn r p (u1 _ _ _ e)
    have a2 := t2 s a1 b1
    have b2 : ∀ r p, σ2.ptr r p ≠ some s.id := fun r p e => b1 r p (u2 _ _ _ e)
    have a3 := t3 s a2 b2
    exact t4 s a3 (fun r p e => b2 r p (u3 _ _ _ e))
  · intro s hs e
    rw [hc] at e; injection e with e
    exact hno s hs e.symm

end LP.LinkLife
