import Verif.Lemma.BusHist
/-!
# Detaching and distributing over the hierarchy
-/
namespace LP.Bus

/-- Buses in `D` lost their publishing function, buses in `R` were stopped, nothing else changed. -/
structure Eff (w w' : World) (D R : Nat → Prop) : Prop where
  bus : ∀ b, (w'.bus b).name = (w.bus b).name ∧ (w'.bus b).children = (w.bus b).children ∧
    (w'.bus b).subs = (w.bus b).subs ∧ (w'.bus b).pubs = (w.bus b).pubs
  det : ∀ b, D b → (w'.bus b).attached = false
  det' : ∀ b, ¬D b → (w'.bus b).attached = (w.bus b).attached
  stp : ∀ b, R b → (w'.bus b).running = false
  stp' : ∀ b, ¬R b → (w'.bus b).running = (w.bus b).running
  rest : w'.nb = w.nb ∧ w'.ns = w.ns ∧ w'.sub = w.sub ∧ w'.np = w.np ∧ w'.pub = w.pub ∧ w'.queue = w.queue

theorem Eff.trans {w w1 w2 : World} {D R D' R' : Nat → Prop} (h : Eff w w1 D R) (h' : Eff w1 w2 D' R') :
    Eff w w2 (fun b => D b ∨ D' b) (fun b => R b ∨ R' b) := by
  refine ⟨?_, ?_, ?_, ?_, ?_, ?_⟩
  · intro b
    have h1 := h.bus b; have h2 := h'.bus b
    exact ⟨h2.1.trans h1.1, h2.2.1.trans h1.2.1, h2.2.2.1.trans h1.2.2.1, h2.2.2.2.trans h1.2.2.2⟩
  · intro b hb
    by_cases hd : D' b
    · exact h'.det b hd
    · rw [h'.det' b hd]
      rcases hb with hb | hb
      · exact h.det b hb
      · exact absurd hb hd
  · intro b hb
    rw [h'.det' b (fun h => hb (.inr h)), h.det' b (fun h => hb (.inl h))]
  · intro b hb
    by_cases hd : R' b
    · exact h'.stp b hd
    · rw [h'.stp' b hd]
      rcases hb with hb | hb
      · exact h.stp b hb
      · exact absurd hb hd
  · intro b hb
    rw [h'.stp' b (fun h => hb (.inr h)), h.stp' b (fun h => hb (.inl h))]
  · have h1 := h.rest; have h2 := h'.rest
    exact ⟨h2.1.trans h1.1, h2.2.1.trans h1.2.1, h2.2.2.1.trans h1.2.2.1, h2.2.2.2.1.trans h1.2.2.2.1,
      h2.2.2.2.2.1.trans h1.2.2.2.2.1, h2.2.2.2.2.2.trans h1.2.2.2.2.2⟩

theorem Eff.congr {w w' : World} {D R D' R' : Nat → Prop} (h : Eff w w' D R) (hd : ∀ b, D b ↔ D' b) (hr : ∀ b, R b ↔ R' b) :
    Eff w w' D' R' := by
  have e1 : D = D' := funext fun b => propext (hd b)
  have e2 : R = R' := funext fun b => propext (hr b)
  subst e1; subst e2; exact h

theorem Eff.anc {w w' : World} {D R : Nat → Prop} (h : Eff w w' D R) (a b : Nat) : Anc w' a b ↔ Anc w a b :=
  anc_congr (fun x y => by unfold Child; rw [(h.bus x).2.1]) a b

theorem Eff.ok {w w' : World} {D R : Nat → Prop} (h : Eff w w' D R) (hw : WOk w) : WOk w' := by
  refine ⟨?_, ?_, ?_, ?_, ?_, ?_, ?_, ?_, ?_⟩
  · rw [h.rest.1]; exact hw.root
  · intro b; rw [(h.bus b).2.1]; exact hw.sorted b
  · intro b c hc; rw [(h.bus b).2.1] at hc; rw [h.rest.1]; exact hw.child b c hc
  · intro b; rw [(h.bus b).2.1]; exact hw.nodup b
  · intro b b' c h1 h2; rw [(h.bus _).2.1] at h1 h2; exact hw.parent b b' c h1 h2
  · intro b k c hc; rw [(h.bus b).2.1] at hc; rw [(h.bus c).1]; exact hw.named b k c hc
  · intro b; rw [(h.bus b).2.2.1]; exact hw.subsNodup b
  · intro b s hs; rw [(h.bus b).2.2.1] at hs; rw [h.rest.2.1, h.rest.2.2.1]; exact hw.subsHome b s hs
  · intro s hs; rw [h.rest.2.1] at hs; rw [h.rest.1, h.rest.2.2.1]; exact hw.home s hs

theorem detachOne_eff (w : World) (b : Nat) : Eff w (detachOne b w) (fun c => c = b) (fun _ => False) := by
  refine ⟨?_, ?_, ?_, fun _ h => h.elim, ?_, ⟨rfl, rfl, rfl, rfl, rfl, rfl⟩⟩
  · intro c; simp only [detachOne, World.setBus]; split
    · subst_vars; exact ⟨rfl, rfl, rfl, rfl⟩
    · exact ⟨rfl, rfl, rfl, rfl⟩
  · rintro c rfl; simp [detachOne, World.setBus]
  · intro c hc; simp [detachOne, World.setBus, hc]
  · intro c _; simp only [detachOne, World.setBus]; split
    · subst_vars; rfl
    · rfl

theorem stop_eff (w : World) (b : Nat) : Eff w (stop b w) (fun _ => False) (fun c => c = b) := by
  refine ⟨?_, fun _ h => h.elim, ?_, ?_, ?_, ⟨rfl, rfl, rfl, rfl, rfl, rfl⟩⟩
  · intro c; simp only [stop, World.setBus]; split
    · subst_vars; exact ⟨rfl, rfl, rfl, rfl⟩
    · exact ⟨rfl, rfl, rfl, rfl⟩
  · intro c _; simp only [stop, World.setBus]; split
    · subst_vars; rfl
    · rfl
  · rintro c rfl; simp [stop, World.setBus]
  · intro c hc; simp [stop, World.setBus, hc]

theorem detach_kids {n : Nat} (ih : ∀ (w : World) (b : Nat), WOk w → b < w.nb → w.nb - b ≤ n →
      ∃ w', detach n b w = .ok () w' ∧ Eff w w' (fun c => Anc w b c) (fun c => Anc w b c ∧ c ≠ b))
    (cs : List (Str × Nat)) (w : World) (hw : WOk w) (hc : ∀ e ∈ cs, e.2 < w.nb ∧ w.nb - e.2 ≤ n) :
    ∃ w', M.each (fun (e : Str × Nat) => fun w => detach n e.2 (stop e.2 w)) cs w = .ok () w' ∧
      Eff w w' (fun c => ∃ e ∈ cs, Anc w e.2 c) (fun c => ∃ e ∈ cs, Anc w e.2 c) := by
  induction cs generalizing w with
  | nil =>
    refine ⟨w, rfl, ⟨fun _ => ⟨rfl, rfl, rfl, rfl⟩, by simp, fun _ _ => rfl, by simp, fun _ _ => rfl, ⟨rfl, rfl, rfl, rfl, rfl, rfl⟩⟩⟩
  | cons e cs ihc =>
    have h1 := stop_eff w e.2
    have he := hc e (by simp)
    obtain ⟨w2, hr2, h2⟩ := ih (stop e.2 w) e.2 (h1.ok hw) (by rw [h1.rest.1]; exact he.1) (by rw [h1.rest.1]; exact he.2)
    have h12 := h1.trans h2
    obtain ⟨w3, hr3, h3⟩ := ihc w2 (h12.ok hw) (fun e' h' => by rw [h12.rest.1]; exact hc e' (by simp [h']))
    have hrun : M.each (fun (e : Str × Nat) => fun w => detach n e.2 (stop e.2 w)) (e :: cs) w = .ok () w3 := by
      refine (M.each_cons (σ := World) (fun (e : Str × Nat) => fun w => detach n e.2 (stop e.2 w)) e cs w).trans ?_
      simp only [hr2]; exact hr3
    refine ⟨w3, hrun, (h12.trans h3).congr ?_ ?_⟩
    · intro c
      simp only [h1.anc, h12.anc, List.mem_cons, exists_eq_or_imp, false_or]
    · intro c
      simp only [h1.anc, h12.anc, List.mem_cons, exists_eq_or_imp]
      constructor
      · rintro ((h | h) | h)
        · subst h; exact .inl (.refl _)
        · exact .inl h.1
        · exact .inr h
      · rintro (h | h)
        · by_cases hce : c = e.2
          · exact .inl (.inl hce)
          · exact .inl (.inr ⟨h, hce⟩)
        · exact .inr h

theorem detach_spec (n : Nat) : ∀ (w : World) (b : Nat), WOk w → b < w.nb → w.nb - b ≤ n →
    ∃ w', detach n b w = .ok () w' ∧ Eff w w' (fun c => Anc w b c) (fun c => Anc w b c ∧ c ≠ b) := by
  induction n with
  | zero => intro w b _ hb hn; omega
  | succ n ih =>
    intro w b hw hb hn
    have h1 := detachOne_eff w b
    obtain ⟨w2, hr, h2⟩ := detach_kids ih ((detachOne b w).bus b).children (detachOne b w) (h1.ok hw) (by
      intro e he
      rw [(h1.bus b).2.1] at he
      have := hw.child b e.2 (List.mem_map.2 ⟨e, he, rfl⟩)
      rw [h1.rest.1]; omega)
    refine ⟨w2, by simp only [detach, hr], (h1.trans h2).congr ?_ ?_⟩
    · intro c
      simp only [h1.anc, (h1.bus b).2.1]
      constructor
      · rintro (h | ⟨e, he, h⟩)
        · subst h; exact .refl _
        · exact Anc.head ((mem_vals hw).1 (List.mem_map.2 ⟨e, he, rfl⟩)) h
      · intro h
        rcases h.split with h | ⟨d, hd, h⟩
        · exact .inl h.symm
        · obtain ⟨e, he, rfl⟩ := List.mem_map.1 ((mem_vals hw).2 hd)
          exact .inr ⟨e, he, h⟩
    · intro c
      simp only [h1.anc, (h1.bus b).2.1, false_or]
      constructor
      · rintro ⟨e, he, h⟩
        have hch := (mem_vals hw).1 (List.mem_map.2 ⟨e, he, rfl⟩)
        exact ⟨Anc.head hch h, by have := h.le hw; have := (hch.lt hw).1; omega⟩
      · rintro ⟨h, hne⟩
        rcases h.split with h | ⟨d, hd, h⟩
        · exact absurd h.symm hne
        · obtain ⟨e, he, rfl⟩ := List.mem_map.1 ((mem_vals hw).2 hd)
          exact ⟨e, he, h⟩

/-! ## Distribution -/

/-- The callbacks of one bus that a message with this topic is for. -/
def wanted (w : World) (m : BMsg) (b : Nat) : List Call :=
  (w.bus b).subs.flatMap (fun s => match (w.sub s).cb with
    | some f => if TopicRule (w.sub s).topic m.topic then [⟨s, f⟩] else []
    | none => [])

theorem filterMap_offer (w : World) (m : BMsg) (l : List Nat) :
    l.filterMap (offer w m) = l.flatMap (fun s => match (w.sub s).cb with
      | some f => if TopicRule (w.sub s).topic m.topic then [⟨s, f⟩] else []
      | none => []) := by
  induction l with
  | nil => rfl
  | cons s l ih =>
    rw [List.flatMap_cons, ← ih]
    have hm := antMatches_iff (w.sub s).topic m.topic
    unfold offer
    cases hcb : (w.sub s).cb with
    | none => rw [List.filterMap_cons_none (by simp [hcb])]; simp
    | some f =>
      by_cases ht : TopicRule (w.sub s).topic m.topic
      · rw [List.filterMap_cons_some (b := ⟨s, f⟩) (by simp [hcb, hm.2 ht])]; simp [ht]
      · rw [List.filterMap_cons_none (by rw [if_neg (fun h => ht (hm.1 h))])]; simp [ht]

theorem distribute_kids {w : World} {m : BMsg} {n : Nat}
    (ih : ∀ b, b < w.nb → w.nb - b ≤ n → ∃ l, Order w b l ∧ distribute w m n b = some (l.flatMap (wanted w m)))
    (cs : List (Str × Nat)) (hc : ∀ e ∈ cs, e.2 < w.nb ∧ w.nb - e.2 ≤ n) :
    ∃ l, OrderL w cs l ∧ distributeKids (distribute w m n) cs = some (l.flatMap (wanted w m)) := by
  induction cs with
  | nil => exact ⟨[], .nil, by simp [distributeKids]⟩
  | cons e cs ihc =>
    obtain ⟨k, c⟩ := e
    have h0 := hc (k, c) (by simp)
    obtain ⟨l1, o1, e1⟩ := ih c h0.1 h0.2
    obtain ⟨l2, o2, e2⟩ := ihc (fun e he => hc e (by simp [he]))
    exact ⟨l1 ++ l2, .cons o1 o2, by simp [distributeKids, e1, e2]⟩

theorem distribute_spec {w : World} (hw : WOk w) (m : BMsg) (n : Nat) : ∀ b, b < w.nb → w.nb - b ≤ n →
    ∃ l, Order w b l ∧ distribute w m n b = some (l.flatMap (wanted w m)) := by
  induction n with
  | zero => intro b hb hn; omega
  | succ n ih =>
    intro b hb hn
    cases hr : (w.bus b).running with
    | false => exact ⟨[], .stopped hr, by simp [distribute, hr]⟩
    | true =>
      obtain ⟨l, ho, he⟩ := distribute_kids ih (w.bus b).children (by
        intro e he
        have := hw.child b e.2 (List.mem_map.2 ⟨e, he, rfl⟩)
        omega)
      exact ⟨b :: l, .running hr ho, by
        simp only [distribute, hr, if_true, he, Option.map_some, List.flatMap_cons, filterMap_offer]
        rfl⟩

mutual
theorem Order.unique {w : World} {b : Nat} {l l' : List Nat} : Order w b l → Order w b l' → l = l'
  | .stopped _, .stopped _ => rfl
  | .stopped h, .running h' _ => by rw [h] at h'; cases h'
  | .running h _, .stopped h' => by rw [h] at h'; cases h'
  | .running _ h, .running _ h' => by rw [OrderL.unique h h']
theorem OrderL.unique {w : World} {cs : List (Str × Nat)} {l l' : List Nat} : OrderL w cs l → OrderL w cs l' → l = l'
  | .nil, .nil => rfl
  | .cons h1 h2, .cons h1' h2' => by rw [Order.unique h1 h1', OrderL.unique h2 h2']
end

/-- The first step down a running path. -/
theorem RunPath.head {w : World} {a c b : Nat} (ha : (w.bus a).running = true) (hc : Child w a c) (h : RunPath w c b) :
    RunPath w a b := by
  induction h with
  | refl h => exact .step (.refl ha) hc h
  | step _ hd hr ih => exact .step ih hd hr

theorem RunPath.split {w : World} {a b : Nat} (h : RunPath w a b) : a = b ∨ ∃ c, Child w a c ∧ RunPath w c b := by
  induction h with
  | refl => exact .inl rfl
  | step h hc hr ih =>
    rcases ih with rfl | ⟨d, hd, hdb⟩
    · exact .inr ⟨_, hc, .refl hr⟩
    · exact .inr ⟨d, hd, .step hdb hc hr⟩

mutual
theorem Order.mem {w : World} (hw : WOk w) {b : Nat} {l : List Nat} (h : Order w b l) (x : Nat) :
    x ∈ l ↔ RunPath w b x := by
  match h with
  | .stopped h =>
    constructor
    · intro h; cases h
    · intro hp; rw [hp.ends.1] at h; cases h
  | .running hr h =>
    have h1 := OrderL.mem hw h x
    rw [List.mem_cons, h1]
    constructor
    · rintro (rfl | ⟨e, he, hp⟩)
      · exact .refl hr
      · exact RunPath.head hr ((mem_vals hw).1 (List.mem_map.2 ⟨e, he, rfl⟩)) hp
    · intro hp
      rcases hp.split with h | ⟨c, hc, hp⟩
      · exact .inl h.symm
      · obtain ⟨e, he, rfl⟩ := List.mem_map.1 ((mem_vals hw).2 hc)
        exact .inr ⟨e, he, hp⟩
theorem OrderL.mem {w : World} (hw : WOk w) {cs : List (Str × Nat)} {l : List Nat} (h : OrderL w cs l) (x : Nat) :
    x ∈ l ↔ ∃ e ∈ cs, RunPath w e.2 x := by
  match h with
  | .nil => simp
  | .cons (k := k) (c := c) h1 h2 =>
    rw [List.mem_append, Order.mem hw h1, OrderL.mem hw h2]
    simp
end

mutual
theorem Order.nodup {w : World} (hw : WOk w) {b : Nat} {l : List Nat} (h : Order w b l) : l.Nodup := by
  match h with
  | .stopped h => exact List.nodup_nil
  | .running hr h =>
    rw [List.nodup_cons]
    refine ⟨?_, OrderL.nodup hw h b (fun e he => (mem_vals hw).1 (List.mem_map.2 ⟨e, he, rfl⟩)) (hw.nodup b)⟩
    intro hb
    obtain ⟨e, he, hp⟩ := (OrderL.mem hw h b).1 hb
    have := hp.anc.le hw
    have := (hw.child b e.2 (List.mem_map.2 ⟨e, he, rfl⟩)).1
    omega
theorem OrderL.nodup {w : World} (hw : WOk w) {cs : List (Str × Nat)} {l : List Nat} (h : OrderL w cs l) (p : Nat)
    (hc : ∀ e ∈ cs, Child w p e.2) (hn : (cs.map Prod.snd).Nodup) : l.Nodup := by
  match h with
  | .nil => exact List.nodup_nil
  | .cons (k := k) (c := c) (cs := cs) h1 h2 =>
    rw [List.map_cons, List.nodup_cons] at hn
    rw [List.nodup_append]
    refine ⟨Order.nodup hw h1, OrderL.nodup hw h2 p (fun e he => hc e (by simp [he])) hn.2, ?_⟩
    intro x hx y hy e
    subst e
    rw [Order.mem hw h1] at hx
    obtain ⟨e, he, hp⟩ := (OrderL.mem hw h2 x).1 hy
    have := Anc.branch_unique hw (hc (k, c) (by simp)) (hc e (by simp [he])) hx.anc hp.anc
    exact hn.1 (this ▸ List.mem_map.2 ⟨e, he, rfl⟩)
end

theorem wanted_mem {w : World} {m : BMsg} {b : Nat} {c : Call} :
    c ∈ wanted w m b ↔ c.sub ∈ (w.bus b).subs ∧ (w.sub c.sub).cb = some c.cb ∧ TopicRule (w.sub c.sub).topic m.topic := by
  unfold wanted
  rw [List.mem_flatMap]
  constructor
  · rintro ⟨s, hs, h⟩
    cases hcb : (w.sub s).cb with
    | none => simp [hcb] at h
    | some f =>
      by_cases ht : TopicRule (w.sub s).topic m.topic
      · simp [hcb, ht] at h; subst h; exact ⟨hs, hcb, ht⟩
      · simp [hcb, ht] at h
  · rintro ⟨h1, h2, h3⟩
    exact ⟨c.sub, h1, by simp [h2, h3]⟩

/-- The subscribers called, in order: a sublist of the registration order. -/
theorem wanted_subs (w : World) (m : BMsg) (b : Nat) : ((wanted w m b).map Call.sub).Sublist (w.bus b).subs := by
  unfold wanted
  induction (w.bus b).subs with
  | nil => exact List.Sublist.refl _
  | cons s l ih =>
    rw [List.flatMap_cons, List.map_append]
    cases hcb : (w.sub s).cb with
    | none => simp only [List.map_nil, List.nil_append]; exact ih.cons _
    | some f =>
      by_cases ht : TopicRule (w.sub s).topic m.topic
      · simp only [ht, if_true, List.map_cons, List.map_nil, List.cons_append, List.nil_append]; exact ih.cons_cons _
      · simp only [ht, if_false, List.map_nil, List.nil_append]; exact ih.cons _

theorem calls_nodup {w : World} (hw : WOk w) (m : BMsg) (l : List Nat) (hl : l.Nodup) :
    ((l.flatMap (wanted w m)).map Call.sub).Nodup := by
  induction l with
  | nil => exact List.nodup_nil
  | cons b l ih =>
    rw [List.nodup_cons] at hl
    rw [List.flatMap_cons, List.map_append, List.nodup_append]
    refine ⟨(wanted_subs w m b).nodup (hw.subsNodup b), ih hl.2, ?_⟩
    intro s hs s' hs' e
    subst e
    have h1 := (hw.subsHome b s ((wanted_subs w m b).subset hs)).2
    obtain ⟨c, hc, rfl⟩ := List.mem_map.1 hs'
    obtain ⟨b', hb', hc'⟩ := List.mem_flatMap.1 hc
    have h2 := (hw.subsHome b' c.sub (wanted_mem.1 hc').1).2
    exact hl.1 ((h1.symm.trans h2) ▸ hb')

/-! ## The machine run alone does the same -/

/-- `σ'` is reached from `σ` by steps of the bus thread alone. -/
def Alone (σ σ' : St) : Prop := ∃ n, exec σ (List.replicate n (.run .go)) = some σ'

theorem Alone.refl (σ : St) : Alone σ σ := ⟨0, rfl⟩
theorem Alone.trans {σ σ' σ'' : St} (h : Alone σ σ') (h' : Alone σ' σ'') : Alone σ σ'' := by
  obtain ⟨n, h⟩ := h
  obtain ⟨n', h'⟩ := h'
  exact ⟨n + n', by rw [← List.replicate_append_replicate, exec_append, h]; exact h'⟩
theorem Alone.one {σ σ' : St} (h : rstep .go σ = some σ') : Alone σ σ' := ⟨1, by simp [exec, step, h]⟩

/-- The state with the given stack and log. -/
def at' (σ : St) (m : BMsg) (st : List Frame) (batch : List BMsg) (log : List Delivery) : St :=
  { σ with phase := .visit m st false batch, log := log }

/-- A callback invocation as a log entry. -/
def entry (m : BMsg) (i : Nat) (c : Call) : Delivery := ⟨c.sub, c.cb, i, m⟩

theorem alone_subs (σ : St) (m : BMsg) (b : Nat) (rest : List Nat) (st : List Frame) (batch : List BMsg)
    (log : List Delivery) : Alone (at' σ m (.subs b rest :: st) batch log)
      (at' σ m (.gap b :: st) batch (log ++ (rest.filterMap (offer σ.w m)).map (entry m (σ.fates.length - 1)))) := by
  induction rest generalizing log with
  | nil => refine Alone.one ?_; simp [rstep, at', dstep]
  | cons s rest ih =>
    cases ho : offer σ.w m s with
    | none =>
      rw [List.filterMap_cons_none ho]
      refine Alone.trans (Alone.one (σ' := at' σ m (.subs b rest :: st) batch log) ?_) (ih log)
      simp [rstep, at', dstep, ho]
    | some c =>
      rw [List.filterMap_cons_some ho]
      have h1 : Alone (at' σ m (.subs b (s :: rest) :: st) batch log)
          { σ with phase := .visit m (.subs b rest :: st) true batch, log := log ++ [entry m (σ.fates.length - 1) c] } := by
        refine Alone.one ?_
        simp [rstep, at', dstep, ho, entry]
      have h2 : Alone { σ with phase := .visit m (.subs b rest :: st) true batch, log := log ++ [entry m (σ.fates.length - 1) c] }
          (at' σ m (.subs b rest :: st) batch (log ++ [entry m (σ.fates.length - 1) c])) := by
        refine Alone.one ?_
        simp [rstep, at']
      have h3 := ih (log ++ [entry m (σ.fates.length - 1) c])
      rw [List.append_assoc] at h3
      exact (h1.trans h2).trans h3

theorem alone_kids {σ : St} {m : BMsg} {batch : List BMsg} {b : Nat} {N : Nat}
    (ih : ∀ c, c < σ.w.nb → σ.w.nb - c ≤ N → (σ.w.bus c).running = true → ∀ st log l, Order σ.w c l →
      Alone (at' σ m (.want c :: st) batch log)
        (at' σ m st batch (log ++ (l.flatMap (wanted σ.w m)).map (entry m (σ.fates.length - 1)))))
    (cs : List (Str × Nat)) (hc : ∀ e ∈ cs, e.2 < σ.w.nb ∧ σ.w.nb - e.2 ≤ N) (st : List Frame) (log : List Delivery)
    (l : List Nat) (ho : OrderL σ.w cs l) :
    Alone (at' σ m (.kids b (cs.map Prod.snd) :: st) batch log)
      (at' σ m st batch (log ++ (l.flatMap (wanted σ.w m)).map (entry m (σ.fates.length - 1)))) := by
  induction cs generalizing log l with
  | nil =>
    cases ho
    refine Alone.one ?_
    simp [rstep, at', dstep]
  | cons e cs ihc =>
    cases ho with
    | @cons k c _ l1 l2 h1 h2 =>
      have h0 := hc (k, c) (by simp)
      have hrest := ihc (fun e he => hc e (by simp [he]))
      cases hr : (σ.w.bus c).running with
      | false =>
        have : l1 = [] := by
          cases h1 with
          | stopped => rfl
          | running h _ => rw [hr] at h; cases h
        subst this
        refine Alone.trans (Alone.one (σ' := at' σ m (.kids b (cs.map Prod.snd) :: st) batch log) ?_) (hrest log l2 h2)
        simp [rstep, at', dstep, hr]
      | true =>
        have e1 : Alone (at' σ m (.kids b (((k, c) :: cs).map Prod.snd) :: st) batch log)
            (at' σ m (.want c :: .kids b (cs.map Prod.snd) :: st) batch log) := by
          refine Alone.one ?_
          simp [rstep, at', dstep, hr]
        have e2 := ih c h0.1 h0.2 hr (.kids b (cs.map Prod.snd) :: st) log l1 h1
        have e3 := hrest (log ++ (l1.flatMap (wanted σ.w m)).map (entry m (σ.fates.length - 1))) l2 h2
        rw [List.append_assoc, ← List.map_append, ← List.flatMap_append] at e3
        exact (e1.trans e2).trans e3

theorem alone_want {σ : St} (hw : WOk σ.w) {m : BMsg} {batch : List BMsg} (N : Nat) : ∀ b, b < σ.w.nb → σ.w.nb - b ≤ N →
    (σ.w.bus b).running = true → ∀ st log l, Order σ.w b l →
      Alone (at' σ m (.want b :: st) batch log)
        (at' σ m st batch (log ++ (l.flatMap (wanted σ.w m)).map (entry m (σ.fates.length - 1)))) := by
  induction N with
  | zero => intro b hb hn; omega
  | succ N ih =>
    intro b hb hn hr st log l ho
    cases ho with
    | stopped h => rw [hr] at h; cases h
    | @running _ l _ hl =>
      have e1 : Alone (at' σ m (.want b :: st) batch log) (at' σ m (.subs b (σ.w.bus b).subs :: st) batch log) := by
        refine Alone.one ?_
        simp [rstep, at', dstep]
      have e2 := alone_subs σ m b (σ.w.bus b).subs st batch log
      rw [filterMap_offer] at e2
      generalize hlog : log ++ List.map (entry m (σ.fates.length - 1)) _ = log' at e2
      have e3 : Alone (at' σ m (.gap b :: st) batch log') (at' σ m (.kids b ((σ.w.bus b).children.map Prod.snd) :: st) batch log') := by
        refine Alone.one ?_
        simp [rstep, at', dstep, Dict.vals]
      have e4 := alone_kids (b := b) ih (σ.w.bus b).children (by
        intro e he
        have := hw.child b e.2 (List.mem_map.2 ⟨e, he, rfl⟩)
        omega) st log' l hl
      have := ((e1.trans e2).trans e3).trans e4
      rw [← hlog, List.append_assoc, ← List.map_append] at this
      rw [List.flatMap_cons]
      exact this

end LP.Bus
