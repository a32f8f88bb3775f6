import Verif.Lemma.Spin
/-!
# C128: what is published is delivered, in time without bound
-/
namespace LP.Bus

/-! ## C128 -/

/-- A subscriber that stays registered on a running bus gets every matching message that waits at some moment, at some later
moment, on every schedule that does not forget the bus thread, and whatever the other threads and the callbacks do, as long as
callbacks return and child buses are created only finitely often. -/
theorem C128_delivered (ρ : Endless) (s n i T : Nat) (m : BMsg) (h : Reachable (ρ.st 0)) (hf : ρ.Fair) (ht : ρ.NoThrow)
    (hT : ρ.NoNewBuses T) (hs : s < (ρ.st n).w.ns) (hl : ∀ k, n ≤ k → Live (ρ.st k).w s) (ho : (ρ.st n).phase ≠ .off)
    (hi : (ρ.st n).fates.length ≤ i) (hm : (ρ.st n).published[i]? = some m)
    (htop : TopicRule ((ρ.st n).w.sub s).topic m.topic) : ∃ k, n ≤ k ∧ i ∈ received s (ρ.st k).log := by
  have hinv := Endless.inv h
  have hrun : ∀ k, n ≤ k → ((ρ.st k).w.bus 0).running = true := fun k hk =>
    RunPath.above (hinv k).wok (hl k hk).2.2 (RunPath.anc (hl k hk).2.2)
  have hlen : i < (ρ.st n).published.length := (List.getElem?_eq_some_iff.1 hm).1
  have hmax : n ≤ max n T := Nat.le_max_left _ _
  obtain ⟨k, hk, hd⟩ := dealt h hf hT ht (i := i) (max n T) (Nat.le_max_right _ _) (fun m hm => hrun m (by omega))
    (Endless.on h ht hmax hrun ho) (Nat.lt_of_lt_of_le hlen (Endless.published h hmax).length_le)
  obtain ⟨d, rfl⟩ : ∃ d, k = n + d := ⟨k - n, by omega⟩
  have he := ρ.exec_cut n d
  have hc : .run .throwing ∉ ρ.cut n d := by
    intro hm
    obtain ⟨j, _, hj⟩ := List.mem_map.1 hm
    exact ht j hj
  have hx := live_exec (hinv n) (live_start (hinv n) hs) (ρ.throughout_cut _ n d hl) hc he
  have hst : (ρ.st (n + d)).phase.stack = [] := by
    cases hp : (ρ.st (n + d)).phase <;> first | rfl | exact absurd hp (hd.2 _ _ _ _)
  have hg := hx.got
  rw [hst, pendS_nil, Nat.sub_zero] at hg
  refine ⟨n + d, Nat.le_add_right _ _, ?_⟩
  have hpre := Endless.published h (Nat.le_add_right n d)
  have htopic : ((ρ.st (n + d)).w.sub s).topic = ((ρ.st n).w.sub s).topic := by
    refine (exec_induct (P := fun τ => s < τ.w.ns ∧ (τ.w.sub s).topic = ((ρ.st n).w.sub s).topic) (Q := fun _ => True) ?_
      (hinv n) (fun _ _ => trivial) ⟨hs, rfl⟩ he).2
    intro σ a σ' hi' _ hp hst
    by_cases hr : ∃ c, a = .run c
    · obtain ⟨c, rfl⟩ := hr
      have := run_world hst
      rw [this.2.2.1, this.2.2.2.1]; exact hp
    · have hg := (step_external hi'.wok (fun c e => hr ⟨c, e⟩) hst).grows
      exact ⟨Nat.lt_of_lt_of_le hp.1 hg.2.1, by rw [(hg.2.2.2 s hp.1).2]; exact hp.2⟩
  have hmem : i ∈ due ((ρ.st (n + d)).w.sub s).topic (ρ.st (n + d)).published (ρ.st n).fates.length
      (ρ.st (n + d)).fates.length := by
    unfold due
    refine List.mem_filter.2 ⟨List.mem_range'_1.2 ⟨hi, by have := hd.1; omega⟩, ?_⟩
    obtain ⟨l, hl⟩ := hpre
    rw [← hl, List.getElem?_append_left hlen, hm, htopic]
    simpa using htop
  rw [← hg] at hmem
  exact (List.mem_filter.1 hmem).1

/-- Whoever listens: as long as the root is running, the thread in `Start` takes every waiting message from the queue at some time
and gets through with its distribution. -/
theorem C128_dealt_with (ρ : Endless) (n i T : Nat) (h : Reachable (ρ.st 0)) (hf : ρ.Fair) (ht : ρ.NoThrow)
    (hT : ρ.NoNewBuses T) (hr : ∀ k, n ≤ k → ((ρ.st k).w.bus 0).running = true) (ho : (ρ.st n).phase ≠ .off)
    (hi : i < (ρ.st n).published.length) : ∃ k, n ≤ k ∧ DealtWith i (ρ.st k) := by
  have hmax : n ≤ max n T := Nat.le_max_left _ _
  obtain ⟨k, hk, hd⟩ := dealt h hf hT ht (i := i) (max n T) (Nat.le_max_right _ _) (fun m hm => hr m (by omega))
    (Endless.on h ht hmax hr ho) (Nat.lt_of_lt_of_le hi (Endless.published h hmax).length_le)
  exact ⟨k, by omega, hd⟩

/-- If the publishing ends, the bus comes to rest, for good. -/
theorem C128_comes_to_rest (ρ : Endless) (n T : Nat) (h : Reachable (ρ.st 0)) (hf : ρ.Fair) (ht : ρ.NoThrow)
    (hT : ρ.NoNewBuses T) (hr : ∀ k, n ≤ k → ((ρ.st k).w.bus 0).running = true) (ho : (ρ.st n).phase ≠ .off)
    (hp : ∀ k, n ≤ k → ∀ i, ρ.act k ≠ .push i) : ∃ k, n ≤ k ∧ ∀ j, k ≤ j → Idle (ρ.st j) := by
  have hinv := Endless.inv h
  suffices H : ∃ k, n ≤ k ∧ Idle (ρ.st k) by
    obtain ⟨k, hk, hd⟩ := H
    refine ⟨k, hk, fun j hj => ?_⟩
    induction hj with
    | refl => exact hd
    | step hle ih => exact rest_step (hinv _) (hp _ (Nat.le_trans hk hle)) ih (ρ.ok _)
  have hpub : ∀ k, n ≤ k → (ρ.st k).published = (ρ.st n).published := by
    intro k hk
    induction hk with
    | refl => rfl
    | step hle ih =>
      exact (published_step (hp _ hle) (ρ.ok _)).trans ih
  cases hl : (ρ.st n).published.length with
  | zero =>
    refine ⟨n, Nat.le_refl _, ?_⟩
    have hc := (hinv n).count
    rw [hl] at hc
    refine ⟨List.eq_nil_of_length_eq_zero (by omega), List.eq_nil_of_length_eq_zero (by omega), ?_⟩
    intro m st cb b hv
    have := ((hinv n).cur m st cb b hv).1
    omega
  | succ i =>
    obtain ⟨k, hk, hd⟩ := C128_dealt_with ρ n i T h hf ht hT hr ho (by omega)
    refine ⟨k, hk, ?_⟩
    have hc := (hinv k).count
    rw [hpub k hk, hl] at hc
    have := hd.1
    exact ⟨List.eq_nil_of_length_eq_zero (by omega), List.eq_nil_of_length_eq_zero (by omega), hd.2⟩

/-- Two messages are published on a bus with two subscribers; the second subscriber's callback has been called with the first
message. -/
def spinUp : List Act :=
  [.createSub 0 (bs "u") (some 0), .createSub 0 (bs "t") (some 1), .publish 0 Spin.first, .publish 0 Spin.second, .push 0, .push 0,
    .start] ++ List.replicate 8 (.run .go)

/-- A callback that gives its own bus a child bus with a copy of itself is called again there, with the same message, and so on:
a single message occupies the bus for ever, and what waits behind it is never delivered, although nobody but the bus thread does
anything. -/
theorem C128_busy_for_ever : ∃ ρ : Endless, Reachable (ρ.st 0) ∧ ρ.Fair ∧ ρ.NoThrow ∧ ρ.Alone ∧
    ∃ s i m, s < (ρ.st 0).w.ns ∧ (∀ k, Live (ρ.st k).w s) ∧ (ρ.st 0).phase ≠ .off ∧ (ρ.st 0).fates.length ≤ i ∧
      (ρ.st 0).published[i]? = some m ∧ TopicRule ((ρ.st 0).w.sub s).topic m.topic ∧
      ∀ k, i ∉ received s (ρ.st k).log := by
  obtain ⟨σ, _, hreach, e⟩ := play_obs (bs "r") spinUp
    (fun σ => (σ.w.ns, σ.w.sub 0, σ.w.bus 0, σ.published, σ.fates, σ.log.map (·.sub), σ.w.nb, σ.phase))
    (2, ⟨bs "u", some 0, 0⟩, ⟨bs "r", [], [0, 1], [], true, true⟩, [Spin.first, Spin.second], [.distributed], [1], 1,
      .visit Spin.first [.subs 0 []] true [Spin.second]) rfl
  simp only [Prod.mk.injEq] at e
  obtain ⟨e1, e2, e3, e4, e5, e6, e7, e8⟩ := e
  have hlog : received 0 σ.log = [] := by
    cases hl : σ.log with
    | nil => rfl
    | cons d l =>
      rw [hl] at e6
      simp only [List.map_cons, List.cons.injEq, List.map_eq_nil_iff] at e6
      simp [received, e6.1, e6.2]
  have h0 : Spin.At 0 σ := .p0 (b := 0) (K := []) ⟨⟨by omega, e2, by rw [e3]; simp, by rw [e3], e4, e5, hlog⟩,
    (fun f hf => by cases hf), e7, by rw [e3], by rw [e3], e8⟩
  refine ⟨Spin.endless σ h0, hreach, ?_, ?_, ?_, 0, 1, Spin.second, ?_, ?_, ?_, ?_, ?_, ?_, ?_⟩
  · intro n
    rcases (Spin.round h0 n).who with ⟨_, h⟩ | ⟨h1, _⟩
    · exact ⟨n, Nat.le_refl _, .go, h⟩
    · rcases (Spin.round h0 (n + 2)).who with ⟨_, h⟩ | ⟨h2, _⟩
      · exact ⟨n + 2, by omega, .go, h⟩
      · omega
  · intro n h
    rcases (Spin.round h0 n).who with ⟨_, h'⟩ | ⟨_, h', _⟩
    · have : Spin.next (Spin.states σ n) = .run .throwing := h
      rw [h'] at this; cases this
    · exact h' _ h
  · intro n
    rcases (Spin.round h0 n).who with ⟨_, h'⟩ | ⟨_, _, h'⟩
    · exact .inl ⟨_, h'⟩
    · exact .inr h'
  · exact h0.base.ns
  · intro k
    have hb := (Spin.round h0 k).base
    show Live (Spin.states σ k).w 0
    refine ⟨?_, ?_, ?_⟩ <;> rw [hb.sub]
    · exact hb.reg
    · simp
    · exact .refl hb.run
  · show σ.phase ≠ .off
    rw [e8]; simp
  · show σ.fates.length ≤ 1
    rw [e5]; simp
  · show σ.published[1]? = _
    rw [e4]; rfl
  · show TopicRule (σ.w.sub 0).topic _
    rw [e2]; exact .inl rfl
  · intro k hk
    have := (Spin.round h0 k).base.log
    have hk' : 1 ∈ received 0 (Spin.states σ k).log := hk
    rw [this] at hk'
    cases hk'

/-- The bus thread goes on by itself. -/
def solo (σ : St) : Nat → St
  | 0 => σ
  | n + 1 => (rstep .go (solo σ n)).getD (solo σ n)

theorem solo_ok {σ : St} (hi : Inv σ) (hr : (σ.w.bus 0).running = true) (ho : σ.phase ≠ .off) (n : Nat) :
    step (solo σ n) (.run .go) = some (solo σ (n + 1)) ∧ Inv (solo σ n) ∧ (solo σ n).phase ≠ .off ∧
      (solo σ n).w.bus = σ.w.bus ∧ (solo σ n).w.sub = σ.w.sub := by
  induction n with
  | zero =>
    obtain ⟨σ', h⟩ := run_enabled σ ho
    exact ⟨by simp [step, solo, h], hi, ho, rfl, rfl⟩
  | succ n ih =>
    obtain ⟨h1, h2, h3, h4, h5⟩ := ih
    have hw := run_world h1
    have hn := on_step h2 (by rw [h4]; exact hr) (by simp) h3 h1
    obtain ⟨σ', h⟩ := run_enabled _ hn
    exact ⟨by simp only [step]; rw [h]; simp [solo] at h ⊢; simp [h], inv_step h2 h1, hn, hw.1.trans h4, hw.2.2.1.trans h5⟩

/-- A hierarchy with a subscriber on a child bus, two messages waiting, and then nothing but the bus thread, for ever. -/
example : ∃ ρ : Endless, ∃ m, Reachable (ρ.st 0) ∧ ρ.Fair ∧ ρ.NoThrow ∧ ρ.NoNewBuses 0 ∧ 1 < (ρ.st 0).w.ns ∧
    (∀ k, 0 ≤ k → Live (ρ.st k).w 1) ∧ (ρ.st 0).phase ≠ .off ∧ (ρ.st 0).fates.length ≤ 1 ∧
    (ρ.st 0).published[1]? = some m ∧ TopicRule ((ρ.st 0).w.sub 1).topic m.topic ∧
    (∀ k, 0 ≤ k → ((ρ.st k).w.bus 0).running = true) ∧ (∀ k, 0 ≤ k → ∀ i, ρ.act k ≠ .push i) := by
  obtain ⟨σ, _, h, e⟩ := play_obs (bs "r")
    [.createChild 0 (bs "c"), .createSub 0 (bs "t") (some 0), .createSub 1 (bs "u") (some 1), .publish 0 Spin.first,
      .publish 1 Spin.second, .push 0, .push 0, .start]
    (fun σ => (σ.w.ns, σ.w.sub 1, σ.w.bus 0, σ.w.bus 1, σ.published, σ.fates.length, σ.phase))
    (2, ⟨bs "u", some 1, 1⟩, ⟨bs "r", [(bs "c", 1)], [0], [], true, true⟩, ⟨bs "c", [], [1], [], true, true⟩,
      [Spin.first, Spin.second], 0, .top) rfl
  simp only [Prod.mk.injEq] at e
  obtain ⟨e1, e2, e3, e4, e5, e6, e7⟩ := e
  have hr : (σ.w.bus 0).running = true := by rw [e3]
  have ho : σ.phase ≠ .off := by rw [e7]; simp
  have hs := solo_ok h.inv hr ho
  refine ⟨⟨solo σ, fun _ => .run .go, fun n => (hs n).1⟩, Spin.second, h, fun n => ⟨n, Nat.le_refl _, .go, rfl⟩,
    fun n => by simp, fun n _ b name => by simp, ?_, ?_, ho, ?_, ?_, ?_, ?_, fun k _ i => by simp⟩
  · show 1 < σ.w.ns; omega
  · intro k _
    show Live (solo σ k).w 1
    have hb := (hs k).2.2.2.1
    have hsub := (hs k).2.2.2.2
    refine ⟨?_, ?_, ?_⟩
    · rw [hsub, e2, hb, e4]; simp
    · rw [hsub, e2]; simp
    · rw [hsub, e2]
      exact .step (.refl (by rw [hb]; exact hr)) ⟨bs "c", by rw [hb, e3]; rfl⟩ (by rw [hb, e4])
  · show σ.fates.length ≤ 1; omega
  · show σ.published[1]? = _
    rw [e5]; rfl
  · show TopicRule (σ.w.sub 1).topic _
    rw [e2]; exact .inl rfl
  · intro k _
    show ((solo σ k).w.bus 0).running = true
    rw [(hs k).2.2.2.1]; exact hr

end LP.Bus
