import Verif.Lemma.BusInv
/-!
# The history invariant of the bus
-/
namespace LP.Bus

theorem pend_le_cov {w : World} (hw : WOk w) {s : Nat} {f : Frame} (hf : f.Ok w) :
    pend w s (w.sub s).home f ≤ cov w (w.sub s).home f := by
  cases f with
  | want b => exact Nat.le_refl _
  | gap b =>
    simp only [pend, cov]
    by_cases h : Anc w b (w.sub s).home
    · rw [ind_pos h]; exact ind_le _
    · rw [ind_neg (fun h' => h h'.1)]; exact Nat.zero_le _
  | kids b rest => simp only [pend, cov]; omega
  | subs b rest =>
    simp only [pend, cov]
    by_cases hs : s ∈ rest
    · have hb := (hw.subsHome _ _ (hf.2.2 s hs)).2
      rw [hb, ind_pos (Anc.refl b), ind_neg (p := Anc w b b ∧ b ≠ b) (fun h => h.2 rfl)]
      have := hf.2.1.count (a := s)
      rw [this, if_pos hs]; omega
    · rw [List.count_eq_zero_of_not_mem hs]
      by_cases h : Anc w b (w.sub s).home
      · rw [ind_pos h]; have := ind_le (Anc w b (w.sub s).home ∧ b ≠ (w.sub s).home); omega
      · rw [ind_neg (fun h' => h h'.1)]; omega

theorem pendS_le_covS {w : World} (hw : WOk w) {s : Nat} {st : List Frame} (hf : ∀ f ∈ st, f.Ok w) :
    pendS w s (w.sub s).home st ≤ covS w (w.sub s).home st := by
  induction st with
  | nil => exact Nat.le_refl _
  | cons f st ih =>
    rw [pendS_cons, covS_cons]
    have := pend_le_cov hw (s := s) (hf f (by simp))
    have := ih (fun g hg => hf g (by simp [hg]))
    omega

theorem pendS_le_one {w : World} (hw : WOk w) {s : Nat} (hs : s < w.ns) {st : List Frame} (h : SOkStack w st) :
    pendS w s (w.sub s).home st ≤ 1 :=
  Nat.le_trans (pendS_le_covS hw h.1) (h.2 _ (hw.home s hs))

/-! ## Interference -/

theorem cov_grows {w w' : World} (h : Grows w w') {b : Nat} (hb : b < w.nb) (f : Frame) : cov w' b f = cov w b f := by
  cases f <;> simp only [cov]
  · exact ind_congr (h.2.2.1 _ _ hb)
  · exact ind_congr (h.2.2.1 _ _ hb)
  · exact ind_congr (h.2.2.1 _ _ hb)
  · rw [h.cnt hb]

theorem pend_grows {w w' : World} (h : Grows w w') {b : Nat} (hb : b < w.nb) (s : Nat) (f : Frame) :
    pend w' s b f = pend w s b f := by
  cases f <;> simp only [pend]
  · exact ind_congr (h.2.2.1 _ _ hb)
  · rw [ind_congr (and_congr (h.2.2.1 _ _ hb) Iff.rfl)]
  · exact ind_congr (and_congr (h.2.2.1 _ _ hb) Iff.rfl)
  · rw [h.cnt hb]

theorem pendS_grows {w w' : World} (h : Grows w w') {b : Nat} (hb : b < w.nb) (s : Nat) (st : List Frame) :
    pendS w' s b st = pendS w s b st := by
  unfold pendS
  rw [List.map_congr_left (fun f _ => pend_grows h hb s f)]

theorem covS_grows {w w' : World} (h : Grows w w') {b : Nat} (hb : b < w.nb) (st : List Frame) :
    covS w' b st = covS w b st := by
  unfold covS
  rw [List.map_congr_left (fun f _ => cov_grows h hb f)]

theorem stack_external {σ σ' : St} (hx : External σ σ') (h : SOkStack σ.w σ.phase.stack) :
    SOkStack σ'.w σ'.phase.stack := by
  rw [hx.stack]
  have hle := hx.grows.1
  refine ⟨?_, ?_⟩
  · intro f hf
    have hok := h.1 f hf
    cases f with
    | want b => exact Nat.lt_of_lt_of_le hok hle
    | gap b => exact Nat.lt_of_lt_of_le hok hle
    | kids b rest => exact ⟨Nat.lt_of_lt_of_le hok.1 hle, fun c hc => Nat.lt_of_lt_of_le (hok.2 c hc) hle⟩
    | subs b rest =>
      refine ⟨Nat.lt_of_lt_of_le hok.1 hle, hok.2.1, ?_⟩
      rw [hx.subsLocked b (holdsSubs_iff.2 ⟨rest, hf⟩)]
      exact hok.2.2
  · intro b hb
    by_cases hlt : b < σ.w.nb
    · rw [covS_grows hx.grows hlt]; exact h.2 b hlt
    · obtain ⟨b0, hb0, hk, _, ha⟩ := hx.fresh b (by omega) hb
      have : covS σ'.w b σ.phase.stack = covS σ.w b0 σ.phase.stack := by
        unfold covS
        congr 1
        apply List.map_congr_left
        intro f hf
        have hok := h.1 f hf
        have hanc : ∀ c, c < σ.w.nb → (Anc σ'.w c b ↔ Anc σ.w c b0) := by
          intro c hc
          rw [ha c]
          constructor
          · rintro (rfl | h)
            · exact absurd hc hlt
            · exact h
          · exact .inr
        cases f with
        | want c => exact ind_congr (hanc c hok)
        | gap c => exact ind_congr (hanc c hok)
        | subs c rest => exact ind_congr (hanc c hok.1)
        | kids c rest =>
          simp only [cov]
          have h1 : c ≠ b := fun e => hlt (e ▸ hok.1)
          have h2 : c ≠ b0 := by
            rintro rfl
            rw [holdsKids_iff.2 ⟨rest, hf⟩] at hk; cases hk
          rw [ind_neg h1, ind_neg h2]
          congr 1
          have hrest := hok.2
          clear hf hok
          induction rest with
          | nil => rfl
          | cons d ds ih =>
            rw [cnt, cnt, ind_congr (hanc d (hrest d (by simp))), ih (fun c hc => hrest c (by simp [hc]))]
      rw [this]
      exact h.2 b0 hb0

/-! ## One step of Distribute -/

/-- The subscriber looked at by the next step. -/
def touch : List Frame → Option Nat
  | .subs _ (s :: _) :: _ => some s
  | _ => none

theorem dstep_ok {w : World} (hw : WOk w) {m : BMsg} {i : Nat} {st : List Frame} (h : SOkStack w st) :
    SOkStack w (dstep w m i st).1 := by
  have tail : ∀ {f : Frame} {st : List Frame}, SOkStack w (f :: st) → ∀ g ∈ st, g.Ok w :=
    fun h g hg => h.1 g (by simp [hg])
  match st, h with
  | [], h => exact h
  | .want b :: st, h =>
    refine ⟨?_, ?_⟩
    · intro g hg
      rcases List.mem_cons.1 hg with rfl | hg
      · exact ⟨h.1 (.want b) (by simp), hw.subsNodup b, fun _ h => h⟩
      · exact tail h g hg
    · intro b' hb'; have := h.2 b' hb'; simpa [dstep, covS_cons, cov] using this
  | .subs b [] :: st, h =>
    refine ⟨?_, ?_⟩
    · intro g hg
      rcases List.mem_cons.1 hg with rfl | hg
      · exact (h.1 (.subs b []) (by simp)).1
      · exact tail h g hg
    · intro b' hb'; have := h.2 b' hb'; simpa [dstep, covS_cons, cov] using this
  | .subs b (s :: rest) :: st, h =>
    have h0 := h.1 (.subs b (s :: rest)) (by simp)
    refine ⟨?_, ?_⟩
    · intro g hg
      rcases List.mem_cons.1 hg with rfl | hg
      · exact ⟨h0.1, (List.nodup_cons.1 h0.2.1).2, fun x hx => h0.2.2 x (by simp [hx])⟩
      · exact tail h g hg
    · intro b' hb'; have := h.2 b' hb'; simpa [dstep, covS_cons, cov] using this
  | .gap b :: st, h =>
    refine ⟨?_, ?_⟩
    · intro g hg
      rcases List.mem_cons.1 hg with rfl | hg
      · exact ⟨h.1 (.gap b) (by simp), fun c hc => (hw.child b c hc).2⟩
      · exact tail h g hg
    · intro b' hb'
      have := h.2 b' hb'
      simp only [dstep, covS_cons, cov] at this ⊢
      rw [cnt_children hw] at this
      exact this
  | .kids b [] :: st, h =>
    refine ⟨tail h, ?_⟩
    intro b' hb'
    have := h.2 b' hb'
    simp only [dstep, covS_cons, cov] at this ⊢
    omega
  | .kids b (c :: rest) :: st, h =>
    have h0 := h.1 (.kids b (c :: rest)) (by simp)
    have h1 : (Frame.kids b rest).Ok w := ⟨h0.1, fun d hd => h0.2 d (by simp [hd])⟩
    simp only [dstep]
    split
    · refine ⟨?_, ?_⟩
      · intro g hg
        rcases List.mem_cons.1 hg with rfl | hg
        · exact h0.2 c (by simp)
        · rcases List.mem_cons.1 hg with rfl | hg
          · exact h1
          · exact tail h g hg
      · intro b' hb'
        have := h.2 b' hb'
        simp only [covS_cons, cov, cnt] at this ⊢
        omega
    · refine ⟨?_, ?_⟩
      · intro g hg
        rcases List.mem_cons.1 hg with rfl | hg
        · exact h1
        · exact tail h g hg
      · intro b' hb'
        have := h.2 b' hb'
        simp only [covS_cons, cov, cnt] at this ⊢
        omega

/-- Visits to a subscriber still due never increase, and the visit made is accounted for. -/
theorem dstep_pend {w : World} (hw : WOk w) {m : BMsg} {i s : Nat} (st : List Frame) :
    pendS w s (w.sub s).home (dstep w m i st).1 + ind (touch st = some s) ≤ pendS w s (w.sub s).home st := by
  match st with
  | [] => simp [dstep, pendS_nil, touch, ind]
  | .want b :: st =>
    simp only [dstep, pendS_cons, pend, touch]
    rw [ind_neg (p := none = some s) (by simp)]
    by_cases hs : s ∈ (w.bus b).subs
    · have hb := (hw.subsHome _ _ hs).2
      rw [hb, ind_pos (Anc.refl b), ind_neg (p := Anc w b b ∧ b ≠ b) (fun h => h.2 rfl), (hw.subsNodup b).count, if_pos hs]
      omega
    · rw [List.count_eq_zero_of_not_mem hs]
      by_cases h : Anc w b (w.sub s).home
      · rw [ind_pos h]; have := ind_le (Anc w b (w.sub s).home ∧ b ≠ (w.sub s).home); omega
      · rw [ind_neg (p := _ ∧ _) (fun h' => h h'.1)]; omega
  | .subs b [] :: st =>
    simp only [dstep, pendS_cons, pend, touch]
    rw [ind_neg (p := none = some s) (by simp)]
    simp
  | .subs b (x :: rest) :: st =>
    simp only [dstep, pendS_cons, pend, touch]
    by_cases hx : x = s
    · subst hx
      rw [ind_pos rfl, List.count_cons_self]; omega
    · rw [ind_neg (p := some x = some s) (by simpa using hx), List.count_cons_of_ne hx]; omega
  | .gap b :: st =>
    simp only [dstep, pendS_cons, pend, touch]
    rw [ind_neg (p := none = some s) (by simp)]
    have h1 := cnt_children hw b (w.sub s).home
    by_cases hb : b = (w.sub s).home
    · rw [ind_pos hb] at h1
      have := ind_le (Anc w b (w.sub s).home)
      have h2 : cnt w (w.sub s).home (w.bus b).children.vals = 0 := by omega
      rw [h2]; omega
    · rw [ind_neg hb] at h1
      have h2 : ind (Anc w b (w.sub s).home ∧ b ≠ (w.sub s).home) = ind (Anc w b (w.sub s).home) :=
        ind_congr ⟨fun h => h.1, fun h => ⟨h, hb⟩⟩
      omega
  | .kids b [] :: st =>
    simp only [dstep, pendS_cons, pend, touch]
    rw [ind_neg (p := none = some s) (by simp)]
    simp
  | .kids b (c :: rest) :: st =>
    simp only [dstep, touch]
    rw [ind_neg (p := none = some s) (by simp)]
    split <;> simp only [pendS_cons, pend, cnt] <;> omega

/-- The same with equality for a subscriber that is registered below running buses only. -/
theorem dstep_pend_live {w : World} (hw : WOk w) {m : BMsg} {i s : Nat} (hs : s ∈ (w.bus (w.sub s).home).subs)
    (hr : ∀ c, Anc w c (w.sub s).home → (w.bus c).running = true) (st : List Frame) :
    pendS w s (w.sub s).home (dstep w m i st).1 + ind (touch st = some s) = pendS w s (w.sub s).home st := by
  match st with
  | [] => simp [dstep, pendS_nil, touch, ind]
  | .want b :: st =>
    simp only [dstep, pendS_cons, pend, touch]
    rw [ind_neg (p := none = some s) (by simp)]
    by_cases hb : b = (w.sub s).home
    · rw [hb, ind_pos (Anc.refl (w.sub s).home),
        ind_neg (p := Anc w (w.sub s).home (w.sub s).home ∧ (w.sub s).home ≠ (w.sub s).home) (fun h => h.2 rfl),
        (hw.subsNodup _).count, if_pos hs]
      omega
    · have : s ∉ (w.bus b).subs := fun h => hb (hw.subsHome _ _ h).2.symm
      rw [List.count_eq_zero_of_not_mem this]
      have h2 : ind (Anc w b (w.sub s).home ∧ b ≠ (w.sub s).home) = ind (Anc w b (w.sub s).home) :=
        ind_congr ⟨fun h => h.1, fun h => ⟨h, hb⟩⟩
      omega
  | .subs b [] :: st =>
    simp only [dstep, pendS_cons, pend, touch]
    rw [ind_neg (p := none = some s) (by simp)]
    simp
  | .subs b (x :: rest) :: st =>
    simp only [dstep, pendS_cons, pend, touch]
    by_cases hx : x = s
    · subst hx
      rw [ind_pos rfl, List.count_cons_self]; omega
    · rw [ind_neg (p := some x = some s) (by simpa using hx), List.count_cons_of_ne hx]; omega
  | .gap b :: st =>
    simp only [dstep, pendS_cons, pend, touch]
    rw [ind_neg (p := none = some s) (by simp)]
    have h1 := cnt_children hw b (w.sub s).home
    by_cases hb : b = (w.sub s).home
    · rw [ind_pos hb] at h1
      have := ind_le (Anc w b (w.sub s).home)
      have h2 : cnt w (w.sub s).home (w.bus b).children.vals = 0 := by omega
      rw [h2, ind_neg (p := Anc w b (w.sub s).home ∧ b ≠ (w.sub s).home) (fun h => h.2 hb)]
      omega
    · rw [ind_neg hb] at h1
      have h2 : ind (Anc w b (w.sub s).home ∧ b ≠ (w.sub s).home) = ind (Anc w b (w.sub s).home) :=
        ind_congr ⟨fun h => h.1, fun h => ⟨h, hb⟩⟩
      omega
  | .kids b [] :: st =>
    simp only [dstep, pendS_cons, pend, touch]
    rw [ind_neg (p := none = some s) (by simp)]
    simp [cnt]
  | .kids b (c :: rest) :: st =>
    simp only [dstep, touch]
    rw [ind_neg (p := none = some s) (by simp)]
    split
    · simp only [pendS_cons, pend, cnt]; omega
    · rename_i hc
      simp only [pendS_cons, pend, cnt]
      rw [ind_neg (p := Anc w c (w.sub s).home) (fun h => hc (hr c h))]; omega

/-- A delivery made by a step goes to the subscriber looked at, by its topic and callback. -/
theorem dstep_delivery {w : World} {m : BMsg} {i : Nat} {st : List Frame} {d : Delivery}
    (h : (dstep w m i st).2 = some d) : touch st = some d.sub ∧ d.idx = i ∧ d.msg = m ∧
      antMatches (w.sub d.sub).topic m.topic = true ∧ (w.sub d.sub).cb = some d.cb := by
  match st with
  | [] => simp [dstep] at h
  | .want b :: st => simp [dstep] at h
  | .subs b [] :: st => simp [dstep] at h
  | .gap b :: st => simp [dstep] at h
  | .kids b [] :: st => simp [dstep] at h
  | .kids b (c :: rest) :: st => simp only [dstep] at h; split at h <;> simp at h
  | .subs b (x :: rest) :: st =>
    simp only [dstep, offer] at h
    split at h
    · rename_i hm
      cases hcb : (w.sub x).cb with
      | none => simp [hcb] at h
      | some cb =>
        simp [hcb] at h
        subst h
        exact ⟨rfl, rfl, rfl, hm, hcb⟩
    · simp at h

theorem dstep_none {w : World} {m : BMsg} {i : Nat} {st : List Frame} {s : Nat} (ht : touch st = some s)
    (h : (dstep w m i st).2 = none) : antMatches (w.sub s).topic m.topic = false ∨ (w.sub s).cb = none := by
  match st, ht with
  | .subs b (x :: rest) :: st, ht =>
    simp only [touch, Option.some.injEq] at ht
    subst ht
    simp only [dstep, offer] at h
    split at h
    · right; cases hcb : (w.sub x).cb with
      | none => rfl
      | some cb => simp [hcb] at h
    · rename_i hm; left; simpa using hm

theorem touch_mem {w : World} {st : List Frame} {s : Nat} (hf : ∀ f ∈ st, f.Ok w) (h : touch st = some s) :
    ∃ b, s ∈ (w.bus b).subs := by
  match st, h with
  | .subs b (x :: rest) :: st, h =>
    simp only [touch, Option.some.injEq] at h
    subst h
    exact ⟨b, (hf (.subs b (x :: rest)) (by simp)).2.2 x (by simp)⟩

/-! ## The history invariant -/

/-- What holds in every reachable state. -/
structure Inv (σ : St) : Prop where
  wok : WOk σ.w
  stack : SOkStack σ.w σ.phase.stack
  len : σ.fates.length ≤ σ.published.length
  split : σ.published.drop σ.fates.length = σ.phase.batch ++ σ.w.queue
  cur : ∀ m st cb b, σ.phase = .visit m st cb b →
    0 < σ.fates.length ∧ σ.published[σ.fates.length - 1]? = some m
  log : ∀ d ∈ σ.log, d.sub < σ.w.ns ∧ d.idx < σ.fates.length ∧ σ.published[d.idx]? = some d.msg ∧
    antMatches (σ.w.sub d.sub).topic d.msg.topic = true
  sorted : σ.log.Pairwise (fun a b => a.idx ≤ b.idx)
  strict : σ.log.Pairwise (fun a b => a.sub = b.sub → a.idx < b.idx)
  once : ∀ m st cb b, σ.phase = .visit m st cb b → ∀ d ∈ σ.log, d.idx = σ.fates.length - 1 →
    pendS σ.w d.sub (σ.w.sub d.sub).home st = 0

theorem inv_initial {name : Str} {σ : St} (h : initial name = some σ) : Inv σ := by
  unfold initial at h
  cases hr : newRoot name with
  | error e => simp [hr] at h
  | ok w =>
    simp [hr] at h
    subst h
    have hq : w.queue = [] := by
      unfold newRoot at hr; split at hr <;> cases hr; rfl
    refine ⟨newRoot_ok hr, ⟨by simp [Phase.stack], by simp [Phase.stack, covS_nil]⟩, by simp, by simp [Phase.batch, hq], ?_, ?_, ?_, ?_, ?_⟩
    · intro _ _ _ _ h; cases h
    · intro d h; cases h
    · exact List.Pairwise.nil
    · exact List.Pairwise.nil
    · intro _ _ _ _ h; cases h

theorem inv_external {σ σ' : St} (hi : Inv σ) (hx : External σ σ') : Inv σ' := by
  obtain ⟨ms, hpub, hq⟩ := hx.queue
  have hvis : ∀ m st cb b, σ'.phase = .visit m st cb b → σ.phase = .visit m st cb b := by
    intro m st cb b h
    rcases hx.phase with h1 | ⟨_, h1⟩ | ⟨_, h1⟩
    · rw [← h1]; exact h
    · rw [h1] at h; cases h
    · rw [h1] at h; cases h
  refine ⟨hx.wok, stack_external hx hi.stack, ?_, ?_, ?_, ?_, ?_, ?_, ?_⟩
  · rw [hx.fates, hpub, List.length_append]; have := hi.len; omega
  · rw [hx.fates, hpub, List.drop_append_of_le_length hi.len, hi.split, hx.batch, hq, List.append_assoc]
  · intro m st cb b h
    obtain ⟨h1, h2⟩ := hi.cur m st cb b (hvis _ _ _ _ h)
    rw [hx.fates, hpub]
    refine ⟨h1, ?_⟩
    rw [List.getElem?_append_left (by have := hi.len; omega)]
    exact h2
  · intro d hd
    rw [hx.log] at hd
    obtain ⟨h1, h2, h3, h4⟩ := hi.log d hd
    rw [hx.fates, hpub]
    refine ⟨Nat.lt_of_lt_of_le h1 hx.grows.2.1, h2, ?_, ?_⟩
    · rw [List.getElem?_append_left (by have := hi.len; omega)]; exact h3
    · rw [(hx.grows.2.2.2 _ h1).2]; exact h4
  · rw [hx.log]; exact hi.sorted
  · rw [hx.log]; exact hi.strict
  · intro m st cb b h d hd he
    rw [hx.log] at hd
    rw [hx.fates] at he
    have h1 := (hi.log d hd).1
    rw [(hx.grows.2.2.2 _ h1).1, pendS_grows hx.grows (hi.wok.home _ h1)]
    exact hi.once m st cb b (hvis _ _ _ _ h) d hd he

/-- A change to a phase outside `Distribute`, batch and queue together as before. -/
theorem inv_quiet {σ : St} (hi : Inv σ) {p : Phase} {q : List BMsg} {fs : List Fate}
    (hp : ∀ m st cb b, p ≠ .visit m st cb b)
    (hb : σ.phase.batch ++ σ.w.queue = (σ.phase.batch ++ σ.w.queue).take fs.length ++ (p.batch ++ q))
    (hl : fs.length ≤ (σ.phase.batch ++ σ.w.queue).length) :
    Inv { σ with phase := p, w := { σ.w with queue := q }, fates := σ.fates ++ fs } := by
  have hs : p.stack = [] := by
    cases p with
    | visit m st cb b => exact absurd rfl (hp m st cb b)
    | _ => rfl
  have hlen : σ.fates.length + fs.length ≤ σ.published.length := by
    have := congrArg List.length hi.split
    rw [List.length_drop] at this
    have := hi.len; omega
  have hw := (pubs_ok hi.wok σ.w.np σ.w.pub q).1
  have hg := (pubs_ok hi.wok σ.w.np σ.w.pub q).2
  refine ⟨hw, ?_, ?_, ?_, ?_, ?_, hi.sorted, hi.strict, ?_⟩
  · simp only [hs]; exact ⟨by simp, by simp [covS_nil]⟩
  · simpa using hlen
  · simp only [List.length_append]
    rw [← List.drop_drop, hi.split]
    conv => lhs; rw [hb]
    rw [List.drop_append, List.length_take, Nat.min_eq_left hl, List.drop_of_length_le (by simp; omega)]
    simp
  · intro m st cb b h; exact absurd h (hp m st cb b)
  · intro d hd
    obtain ⟨h1, h2, h3, h4⟩ := hi.log d hd
    refine ⟨h1, ?_, h3, h4⟩
    simp only [List.length_append]; omega
  · intro m st cb b h; exact absurd h (hp m st cb b)

theorem inv_run {σ σ' : St} {c : Choice} (hi : Inv σ) (h : rstep c σ = some σ') : Inv σ' := by
  -- a change of phase only
  have quiet : ∀ p : Phase, (∀ m st cb b, p ≠ .visit m st cb b) → p.batch = σ.phase.batch →
      Inv { σ with phase := p } := by
    intro p hp hb
    have := inv_quiet hi (p := p) (q := σ.w.queue) (fs := []) hp (by simp [hb]) (by simp)
    simpa using this
  unfold rstep at h
  split at h
  · rename_i hp; cases h; refine quiet _ ?_ ?_
    · intro _ _ _ _; split <;> simp
    · rw [hp]; split <;> rfl
  · rename_i hp; cases h; refine quiet _ ?_ ?_
    · intro _ _ _ _; split <;> simp
    · rw [hp]; split <;> rfl
  · rename_i hp; cases h; exact quiet _ (by simp) (by rw [hp]; rfl)
  · rename_i hp; cases h; exact quiet _ (by simp) (by rw [hp]; rfl)
  · rename_i hp; cases h; exact quiet _ (by simp) (by rw [hp]; rfl)
  · rename_i hp; cases h; refine quiet _ ?_ ?_
    · intro _ _ _ _; split <;> simp
    · rw [hp]; split <;> rfl
  · rename_i hp; cases h
    have := inv_quiet hi (p := .loop σ.w.queue) (q := []) (fs := []) (by simp) (by simp [hp, Phase.batch]) (by simp)
    simpa using this
  · rename_i hp; cases h; exact quiet _ (by simp) (by rw [hp]; rfl)
  · rename_i m batch hp
    have hsplit := hi.split
    have hlen : σ.fates.length < σ.published.length := by
      have := congrArg List.length hsplit
      rw [List.length_drop, hp] at this
      simp [Phase.batch] at this; omega
    have hcur : σ.published[σ.fates.length]? = some m := by
      have h1 : (σ.published.drop σ.fates.length)[0]? = some m := by rw [hsplit, hp]; rfl
      simpa using h1
    have hsucc : σ.published.drop (σ.fates.length + 1) = batch ++ σ.w.queue := by
      rw [← List.drop_drop, hsplit, hp]; rfl
    split at h
    · cases h
      refine ⟨hi.wok, ?_, ?_, ?_, ?_, ?_, hi.sorted, hi.strict, ?_⟩
      · refine ⟨?_, ?_⟩
        · intro f hf
          simp only [Phase.stack, List.mem_singleton] at hf
          subst hf; exact hi.wok.root
        · intro b hb
          simp only [Phase.stack, covS_cons, covS_nil, cov]
          have := ind_le (Anc σ.w 0 b); omega
      · simp; omega
      · simpa [Phase.batch] using hsucc
      · intro m' st cb b he
        cases he
        exact ⟨by simp, by simpa using hcur⟩
      · intro d hd
        obtain ⟨h1, h2, h3, h4⟩ := hi.log d hd
        refine ⟨h1, ?_, h3, h4⟩
        simp; omega
      · intro m' st cb b he d hd hidx
        have := (hi.log d hd).2.1
        simp at hidx; omega
    · cases h
      have := inv_quiet hi (p := .loop batch) (q := σ.w.queue) (fs := [.skipped]) (by simp)
        (by simp [hp, Phase.batch]) (by simp [hp, Phase.batch])
      exact this
  · rename_i hp; cases h; exact quiet _ (by simp) (by rw [hp]; rfl)
  · rename_i m f st batch hp
    have hc := hi.cur _ _ _ _ hp
    have hst : SOkStack σ.w (f :: st) := by have := hi.stack; rw [hp] at this; exact this
    have hst' := dstep_ok hi.wok (m := m) (i := σ.fates.length - 1) hst
    cases hd : dstep σ.w m (σ.fates.length - 1) (f :: st) with
    | mk st' od =>
      rw [hd] at hst'
      have hsplit := hi.split; rw [hp] at hsplit
      have hpend : ∀ s, pendS σ.w s (σ.w.sub s).home st' + ind (touch (f :: st) = some s) ≤
          pendS σ.w s (σ.w.sub s).home (f :: st) := by
        intro s
        have := dstep_pend hi.wok (m := m) (i := σ.fates.length - 1) (s := s) (f :: st)
        rw [hd] at this; exact this
      cases od with
      | none =>
        simp only [hd] at h
        cases h
        refine ⟨hi.wok, hst', hi.len, hsplit, ?_, hi.log, hi.sorted, hi.strict, ?_⟩
        · intro m' s cb b he; cases he; exact hc
        · intro m' s cb b he d hdm hidx
          cases he
          have h1 := hi.once _ _ _ _ hp d hdm hidx
          have := hpend d.sub
          simp only; omega
      | some d =>
        simp only [hd] at h
        cases h
        have hdel := dstep_delivery (w := σ.w) (m := m) (i := σ.fates.length - 1) (st := f :: st) (d := d) (by rw [hd])
        obtain ⟨ht, hidx, hmsg, hmatch, hcb⟩ := hdel
        obtain ⟨b0, hb0⟩ := touch_mem hst.1 ht
        have hns := (hi.wok.subsHome _ _ hb0).1
        have hone := pendS_le_one hi.wok hns hst
        have hpd := hpend d.sub
        rw [ind_pos ht] at hpd
        refine ⟨hi.wok, hst', hi.len, hsplit, ?_, ?_, ?_, ?_, ?_⟩
        · intro m' s cb b he; cases he; exact hc
        · intro e he
          rcases List.mem_append.1 he with he | he
          · exact hi.log e he
          · simp only [List.mem_singleton] at he
            subst he
            refine ⟨hns, by have := hc.1; simp only; omega, ?_, ?_⟩
            · rw [hidx, hmsg]; exact hc.2
            · rw [hmsg]; exact hmatch
        · rw [List.pairwise_append]
          refine ⟨hi.sorted, by simp, ?_⟩
          intro e he d' hd'
          simp only [List.mem_singleton] at hd'
          subst hd'
          have := (hi.log e he).2.1
          omega
        · rw [List.pairwise_append]
          refine ⟨hi.strict, by simp, ?_⟩
          intro e he d' hd' hsub
          simp only [List.mem_singleton] at hd'
          subst hd'
          have h1 := (hi.log e he).2.1
          have h2 : e.idx ≠ σ.fates.length - 1 := by
            intro hx
            have := hi.once _ _ _ _ hp e he hx
            rw [hsub] at this; omega
          omega
        · intro m' s cb b he e hem hidx'
          cases he
          rcases List.mem_append.1 hem with hem | hem
          · have h1 := hi.once _ _ _ _ hp e hem hidx'
            have := hpend e.sub
            simp only at *; omega
          · simp only [List.mem_singleton] at hem
            subst hem
            simp only; omega
  · rename_i m st batch hp
    cases h
    have hsplit := hi.split; rw [hp] at hsplit
    have hst := hi.stack; rw [hp] at hst
    refine ⟨hi.wok, hst, hi.len, hsplit, ?_, hi.log, hi.sorted, hi.strict, ?_⟩
    · intro m' s cb b he; cases he; exact hi.cur _ _ _ _ hp
    · intro m' s cb b he; cases he; exact hi.once _ _ _ _ hp
  · rename_i m st batch hp
    cases h
    have := inv_quiet hi (p := .off) (q := σ.w.queue) (fs := batch.map (fun _ => .lost)) (by simp)
      (by simp [hp, Phase.batch]) (by simp [hp, Phase.batch])
    exact this
  · cases h

theorem inv_step {σ σ' : St} {a : Act} (hi : Inv σ) (h : step σ a = some σ') : Inv σ' := by
  by_cases hr : ∃ c, a = .run c
  · obtain ⟨c, rfl⟩ := hr; exact inv_run hi h
  · exact inv_external hi (step_external hi.wok (fun c e => hr ⟨c, e⟩) h)

theorem inv_exec {σ σ' : St} {as : List Act} (hi : Inv σ) (h : exec σ as = some σ') : Inv σ' := by
  induction as generalizing σ with
  | nil => simp [exec] at h; subst h; exact hi
  | cons a as ih =>
    simp only [exec] at h
    cases hs : step σ a with
    | none => simp [hs] at h
    | some τ => simp only [hs] at h; exact ih (inv_step hi hs) h

theorem Reachable.inv {σ : St} (h : Reachable σ) : Inv σ := by
  obtain ⟨name, σ₀, as, h0, he⟩ := h
  exact inv_exec (inv_initial h0) he

end LP.Bus
