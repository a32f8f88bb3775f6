import Verif.Lemma.Equal
import Verif.Lemma.Shape
/-! Programs that keep handles to parts of datagrams: invariant and effect of one command. -/
namespace LP
open Heap

/-- The invariant of programs with handles: the object graph is a forest and all handles are valid. -/
structure Inv (s : DState) : Prop where
  wf : WF s.heap
  valid : ∀ x a, s.env x = some a → a < s.heap.next

/-- What a command can have changed. -/
structure Effect (c : Cmd) (s s' : DState) : Prop where
  mono : s.heap.next ≤ s'.heap.next
  frame : ∀ z, z < s.heap.next → (∀ y a, c.writes = some y → s.env y = some a → ¬ Reach s.heap a z) → s'.heap.node z = s.heap.node z
  kids : ∀ x b, x < s.heap.next → b < s.heap.next → some b ∈ (s'.heap.node x).children → some b ∈ (s.heap.node x).children
  env : ∀ v, c.binds ≠ some v → s'.env v = s.env v
  bound : ∀ v b, c.binds = some v → s'.env v = some b →
    s.env v = some b ∨ s.heap.next ≤ b ∨ ∃ y a, c.writes = some y ∧ s.env y = some a ∧ Reach s'.heap a b

/-- The command ends in state `s'`, normally or by an exception. -/
def Returns (r : Res DState Unit) (s' : DState) : Prop := r = .ok () s' ∨ ∃ e, r = .throw e s'

theorem Effect.refl (c : Cmd) (s : DState) : Effect c s s :=
  ⟨Nat.le_refl _, fun _ _ _ => rfl, fun _ _ _ _ h => h, fun _ _ => rfl, fun _ _ _ h => Or.inl h⟩

theorem rep_exists {h : Heap} (w : WF h) {a : Nat} (ha : a < h.next) : ∃ t, Rep h (fun x => x < h.next) t a := by
  obtain ⟨t, ht, _⟩ := w.tree ha
  exact ⟨t, Rep.mono (fun _ p => p.2) (fun _ _ => rfl) _ _ ht⟩

theorem handle_does {c : Cmd} {s : DState} (inv : Inv s) {x a : Nat} {m : M Heap Unit} {r : Tree × Option Exn}
    (hw : c.writes = some x) (hb : c.binds = none) (hx : s.env x = some a) (hd : Does m s.heap a r) :
    ∃ s', Returns (Cmd.onHeap m s) s' ∧ Inv s' ∧ Effect c s s' := by
  obtain ⟨h', hr, g⟩ := hd
  refine ⟨⟨h', s.env⟩, ?_, ⟨g.wf, fun y b hy => Nat.lt_of_lt_of_le (inv.valid y b hy) g.mono⟩, g.mono, ?_, g.kids, fun _ _ => rfl, ?_⟩
  · unfold Returns Cmd.onHeap
    rw [hr]
    cases r.2 with
    | none => exact Or.inl rfl
    | some e => exact Or.inr ⟨e, rfl⟩
  · intro z hz hn; exact g.frame z hz (hn x a hw hx)
  · intro v b hv; rw [hb] at hv; cases hv

theorem cmd_step {s : DState} (inv : Inv s) (c : Cmd) (hc : c.Sound) : ∃ s', Returns (c.run s) s' ∧ Inv s' ∧ Effect c s s' := by
  have nop : c.run s = .ok () s → ∃ s', Returns (c.run s) s' ∧ Inv s' ∧ Effect c s s' :=
    fun h => ⟨s, Or.inl h, inv, Effect.refl c s⟩
  have create : ∀ x (n : Node Ptr), c.run s = Cmd.bindVar x (Datagram.make n) s → c.binds = some x → NodeOk n → n.children = [] →
      ∃ s', Returns (c.run s) s' ∧ Inv s' ∧ Effect c s s' := by
    intro x n hrun hb hn hc
    have hex := ext_alloc s.heap n
    refine ⟨⟨{ (s.heap.put s.heap.next n) with next := s.heap.next + 1 }, fun y => if y = x then some s.heap.next else s.env y⟩, Or.inl hrun, ⟨inv.wf.alloc hn hc, ?_⟩, hex.1, ?_, ?_, ?_, ?_⟩
    · intro y b hy
      simp only at hy ⊢
      split at hy
      · simp only [Option.some.injEq] at hy; omega
      · have := inv.valid y b hy; omega
    · intro z hz _; exact hex.2 z hz
    · intro y b hy hbn hm; simp only at hm; rwa [hex.2 y hy] at hm
    · intro v hv; rw [hb] at hv; simp only; rw [if_neg (fun e => hv (by rw [e]))]
    · intro v b hv hvb; rw [hb] at hv; simp only [Option.some.injEq] at hv
      simp only [hv, if_true, Option.some.injEq] at hvb
      exact Or.inr (Or.inl (Nat.le_of_eq hvb))
  have adopt : ∀ x a h', c.run s = .ok () ⟨h', fun z => if z = x then some a else s.env z⟩ → c.binds = some x → CopyShape s.heap a h' →
      ∃ s', Returns (c.run s) s' ∧ Inv s' ∧ Effect c s s' := by
    intro x a h' hrun hb ⟨w', hext, ha, han, _⟩
    refine ⟨⟨h', fun z => if z = x then some a else s.env z⟩, Or.inl hrun, ⟨w', ?_⟩, hext.1, ?_, ?_, ?_, ?_⟩
    · intro z c hz
      simp only at hz
      split at hz
      · simp only [Option.some.injEq] at hz; subst hz; exact han
      · exact Nat.lt_of_lt_of_le (inv.valid z c hz) hext.1
    · intro z hz _; exact hext.2 z hz
    · intro z b hz _ hm; simp only at hm; rwa [hext.2 z hz] at hm
    · intro v hv; rw [hb] at hv; simp only; rw [if_neg (fun e => hv (by rw [e]))]
    · intro v b hv hvb; rw [hb] at hv; simp only [Option.some.injEq] at hv
      simp only [hv, if_true, Option.some.injEq] at hvb
      exact Or.inr (Or.inl (by omega))
  have edit : ∀ x (m : Nat → M Heap Unit), c.run s = Cmd.withVar x (fun a => Cmd.onHeap (m a)) s → c.writes = some x → c.binds = none →
      (∀ a t, s.env x = some a → Rep s.heap (fun z => z < s.heap.next) t a → ∃ r, Does (m a) s.heap a r) →
      ∃ s', Returns (c.run s) s' ∧ Inv s' ∧ Effect c s s' := by
    intro x m hrun hw hb hm
    cases hx : s.env x with
    | none => exact nop (by rw [hrun]; simp [Cmd.withVar, hx])
    | some a =>
      obtain ⟨t, ht⟩ := rep_exists inv.wf (inv.valid x a hx)
      obtain ⟨r, hd⟩ := hm a t hx ht
      have := handle_does inv hw hb hx hd
      rw [hrun]; simpa only [Cmd.withVar, hx] using this
  have index : ∀ x y (m : Nat → M Heap Nat), c.run s = Cmd.withVar y (fun a => Cmd.bindVar x (m a)) s → c.writes = some y → c.binds = some x →
      (∀ a t, s.env y = some a → Rep s.heap (fun z => z < s.heap.next) t a →
        (∃ b h' t', m a s.heap = .ok b h' ∧ Good s.heap a h' t' ∧ some b ∈ (h'.node a).children) ∨
        (∃ e h' t', m a s.heap = .throw e h' ∧ Good s.heap a h' t')) →
      ∃ s', Returns (c.run s) s' ∧ Inv s' ∧ Effect c s s' := by
    intro x y m hrun hw hb hm
    cases hy : s.env y with
    | none => exact nop (by rw [hrun]; simp [Cmd.withVar, hy])
    | some a =>
      have ha := inv.valid y a hy
      obtain ⟨t, ht⟩ := rep_exists inv.wf ha
      rcases hm a t hy ht with ⟨b, h', t', hr, g, hmem⟩ | ⟨e, h', t', hr, g⟩
      · obtain ⟨b', hb', _, hbn⟩ := g.wf.up a (Nat.lt_of_lt_of_le ha g.mono) _ hmem
        simp only [Option.some.injEq] at hb'; subst hb'
        refine ⟨⟨h', fun z => if z = x then some b else s.env z⟩, Or.inl ?_, ⟨g.wf, ?_⟩, g.mono, ?_, g.kids, ?_, ?_⟩
        · rw [hrun]; simp only [Cmd.withVar, hy, Cmd.bindVar, hr]
        · intro z c hz
          simp only at hz
          split at hz
          · simp only [Option.some.injEq] at hz; subst hz; exact hbn
          · exact Nat.lt_of_lt_of_le (inv.valid z c hz) g.mono
        · intro z hz hn; exact g.frame z hz (hn y a hw hy)
        · intro v hv; rw [hb] at hv; simp only; rw [if_neg (fun e => hv (by rw [e]))]
        · intro v c hv hvb; rw [hb] at hv; simp only [Option.some.injEq] at hv
          simp only [hv, if_true, Option.some.injEq] at hvb; subst hvb
          exact Or.inr (Or.inr ⟨y, a, hw, hy, Reach.refl.step hmem⟩)
      · refine ⟨⟨h', s.env⟩, Or.inr ⟨e, ?_⟩, ⟨g.wf, fun z c hz => Nat.lt_of_lt_of_le (inv.valid z c hz) g.mono⟩, g.mono, ?_, g.kids, fun _ _ => rfl,
          fun v c _ h => Or.inl h⟩
        · rw [hrun]; simp only [Cmd.withVar, hy, Cmd.bindVar, hr]
        · intro z hz hn; exact g.frame z hz (hn y a hw hy)
  cases c with
  | make x t => exact create x _ rfl rfl (nodeOk_ofType t) (children_ofType t)
  | makeVal x v => exact create x _ rfl rfl (nodeOk_ofVal v) rfl
  | copyCtor x y =>
    cases hy : s.env y with
    | none => exact nop (by simp [Cmd.run, Cmd.withVar, hy])
    | some a =>
      obtain ⟨t, ht⟩ := rep_exists inv.wf (inv.valid y a hy)
      obtain ⟨h', hr, w', hext, hrep, _⟩ := copyCtor_spec inv.wf ht
      refine ⟨⟨h', fun z => if z = x then some s.heap.next else s.env z⟩, Or.inl ?_, ⟨w', ?_⟩, hext.1, ?_, ?_, ?_, ?_⟩
      · simp only [Cmd.run, Cmd.withVar, hy, Cmd.bindVar, hr]
      · intro z c hz
        simp only at hz
        split at hz
        · simp only [Option.some.injEq] at hz; subst hz; have := Rep.mem hrep; exact this
        · exact Nat.lt_of_lt_of_le (inv.valid z c hz) hext.1
      · intro z hz _; exact hext.2 z hz
      · intro z b hz _ hm; simp only at hm; rwa [hext.2 z hz] at hm
      · intro v hv; simp only [Cmd.binds] at hv; simp only; rw [if_neg (fun e => hv (by rw [e]))]
      · intro v b hv hvb; simp only [Cmd.binds, Option.some.injEq] at hv
        simp only [hv, if_true, Option.some.injEq] at hvb
        exact Or.inr (Or.inl (Nat.le_of_eq hvb))
  | assign x y =>
    cases hy : s.env y with
    | none => 
      refine nop ?_
      simp only [Cmd.run, Cmd.withVar]
      cases s.env x <;> simp [hy]
    | some b =>
      obtain ⟨u, hu⟩ := rep_exists inv.wf (inv.valid y b hy)
      refine edit x (fun a => Datagram.assign a b) ?_ rfl rfl (fun a t _ ht => ⟨_, assign_does inv.wf ht hu⟩)
      simp only [Cmd.run, Cmd.withVar, hy]
  | assignVal x v => exact edit x _ rfl rfl rfl (fun a t _ ht => ⟨_, assignVal_does inv.wf ht v⟩)
  | addVal x v => exact edit x _ rfl rfl rfl (fun a t _ ht => ⟨_, addNew_does inv.wf ht (nodeOk_ofVal v) rfl (rep_ofVal v)⟩)
  | addNew x ty => exact edit x _ rfl rfl rfl (fun a t _ ht => ⟨_, addNew_does inv.wf ht (nodeOk_ofType ty) (children_ofType ty) (rep_ofType ty)⟩)
  | removeKey x k => exact edit x _ rfl rfl rfl (fun a t _ ht => ⟨_, removeKey_does inv.wf ht k⟩)
  | removeIdx x i => exact edit x _ rfl rfl rfl (fun a t _ ht => ⟨_, removeIdx_does inv.wf ht i⟩)
  | clear x => exact edit x _ rfl rfl rfl (fun a t _ ht => ⟨_, clear_does inv.wf ht⟩)
  | indexKey x y k =>
    refine index x y (fun a => Datagram.indexKey a k) rfl rfl rfl ?_
    intro a t _ ht
    obtain ⟨b, h1, d, hr, hn, hf, _, g⟩ := indexKey_spec inv.wf ht k
    refine Or.inl ⟨b, h1, _, hr, g, ?_⟩
    rw [hn]; exact List.mem_append.mpr (Or.inl (List.mem_map_of_mem (f := Prod.snd) (Dict.find_some_mem hf)))
  | indexIdx x y i =>
    refine index x y (fun a => Datagram.indexIdx a i) rfl rfl rfl ?_
    intro a t _ ht
    cases hi : t.asList[i.toNat]? with
    | none =>
      obtain ⟨h1, hr, g⟩ := indexIdx_fail inv.wf ht hi
      exact Or.inr ⟨_, h1, _, hr, g⟩
    | some u =>
      obtain ⟨b, ps, ts, rfl, hr, hn, hp, _⟩ := indexIdx_ok ht hi
      refine Or.inl ⟨b, _, _, hr, Good.refl inv.wf ht, ?_⟩
      rw [hn]; exact List.mem_append.mpr (Or.inr (List.mem_of_getElem? hp))
  | receive x f =>
    rcases deserialize_spec f with ⟨hb, _⟩ | ⟨_, t, _, h⟩
    · exact absurd hb hc
    · obtain ⟨a, h', e1, _, _, hsh⟩ := h s.heap
      exact adopt x a h' (by simp only [Cmd.run, Cmd.bindVar, e1]) rfl (hsh inv.wf)
  | json x tok text =>
    obtain ⟨t, _, h⟩ := json_spec tok text
    obtain ⟨a, h', e1, _, _, hsh⟩ := h s.heap
    exact adopt x a h' (by simp only [Cmd.run, Cmd.bindVar, e1]) rfl (hsh inv.wf)
  | drop x =>
    refine ⟨⟨s.heap, fun y => if y = x then none else s.env y⟩, Or.inl rfl, ⟨inv.wf, ?_⟩, Nat.le_refl _, fun _ _ _ => rfl, fun _ _ _ _ h => h, ?_, ?_⟩
    · intro y a hy; simp only at hy; split at hy
      · cases hy
      · exact inv.valid y a hy
    · intro v hv; simp only [Cmd.binds] at hv; simp only; rw [if_neg (fun e => hv (by rw [e]))]
    · intro v b hv hvb; simp only [Cmd.binds, Option.some.injEq] at hv; simp [hv] at hvb

theorem Inv.init : Inv Cmd.init := ⟨WF.init, by simp [Cmd.init]⟩

/-- Every program runs without undefined behaviour and keeps the invariant. -/
theorem runAll_inv : ∀ (prog : List Cmd) {s : DState}, Inv s → (∀ c ∈ prog, c.Sound) → ∃ s', Cmd.runAll prog s = some s' ∧ Inv s' := by
  intro prog
  induction prog with
  | nil => intro s h _; exact ⟨s, rfl, h⟩
  | cons c cs ih =>
    intro s h hc
    obtain ⟨s1, hr, h1, _⟩ := cmd_step h c (hc c (by simp))
    obtain ⟨s2, hr2, h2⟩ := ih h1 (fun c' h' => hc c' (by simp [h']))
    refine ⟨s2, ?_, h2⟩
    rcases hr with hr | ⟨e, hr⟩ <;> simp only [Cmd.runAll, hr, hr2]

theorem cmd_ub {s : DState} {c : Cmd} (h : ¬ c.Sound) : c.run s = .ub := by
  cases c <;> simp only [Cmd.Sound, not_true_eq_false] at h
  rename_i x f
  rcases deserialize_spec f with ⟨_, hu⟩ | ⟨hb, _⟩
  · simp only [Cmd.run, Cmd.bindVar, hu]
  · exact absurd hb h

/-- A program that ran to its end met no broken table. -/
theorem runAll_sound : ∀ (prog : List Cmd) {s s' : DState}, Cmd.runAll prog s = some s' → ∀ c ∈ prog, c.Sound := by
  intro prog
  induction prog with
  | nil => intro s s' _ c hc; cases hc
  | cons c cs ih =>
    intro s s' hr
    have hs : c.Sound := Classical.byContradiction fun hn => by simp [Cmd.runAll, cmd_ub hn] at hr
    intro c' hc'
    simp only [List.mem_cons] at hc'
    rcases hc' with rfl | hc'
    · exact hs
    · simp only [Cmd.runAll] at hr
      split at hr
      · exact ih hr c' hc'
      · exact ih hr c' hc'
      · cases hr
      · cases hr

theorem separated_step {L : Nat → Prop} {c : Cmd} {s s' : DState} (inv : Inv s) (inv' : Inv s') (hs : Separated L s)
    (hc : Confined L c) (he : Effect c s s') :
    Separated L s' ∧ (∀ y, ¬ L y → s'.env y = s.env y) ∧
      (∀ y b z, ¬ L y → s.env y = some b → Reach s.heap b z → s'.heap.node z = s.heap.node z) := by
  have henv : ∀ y, ¬ L y → s'.env y = s.env y := fun y hy => he.env y (fun h => hy (hc.2 y h))
  have hnode : ∀ y b z, ¬ L y → s.env y = some b → Reach s.heap b z → s'.heap.node z = s.heap.node z := by
    intro y b z hy hb hr
    refine he.frame z (Reach.bounds inv.wf (inv.valid y b hb) hr).2 ?_
    intro x a hx ha hrx
    exact hs x y a b z (hc.1 x hx) hy ha hb hrx hr
  have hback : ∀ y b z, ¬ L y → s.env y = some b → Reach s'.heap b z → Reach s.heap b z := by
    intro y b z hy hb hr
    induction hr with
    | refl => exact .refl
    | @step u v _ hm ih => rw [hnode y b u hy hb ih] at hm; exact ih.step hm
  have hdown : ∀ a z, a < s'.heap.next → Reach s'.heap a z → z < s.heap.next → Reach s.heap a z := by
    intro a z ha hr
    induction hr with
    | refl => intro _; exact .refl
    | @step u v h1 hm ih =>
      intro hv
      obtain ⟨b', hb', hlt, _⟩ := inv'.wf.up u (Reach.bounds inv'.wf ha h1).2 _ hm
      simp only [Option.some.injEq] at hb'; subst hb'
      have hu : u < s.heap.next := Nat.lt_trans hlt hv
      exact (ih hu).step (he.kids u v hu hv hm)
  refine ⟨?_, henv, hnode⟩
  intro x y a b z hx hy ha hb hra hrb
  rw [henv y hy] at hb
  have hrb' := hback y b z hy hb hrb
  have hz := (Reach.bounds inv.wf (inv.valid y b hb) hrb').2
  have ha' := inv'.valid x a ha
  have old : ∀ x0 a0, L x0 → s.env x0 = some a0 → Reach s'.heap a0 z → False := by
    intro x0 a0 hx0 ha0 hr0
    exact hs x0 y a0 b z hx0 hy ha0 hb (hdown a0 z (Nat.lt_of_lt_of_le (inv.valid x0 a0 ha0) he.mono) hr0 hz) hrb'
  by_cases hbind : c.binds = some x
  · rcases he.bound x a hbind ha with h1 | h1 | ⟨y0, a0, hw, ha0, hr0⟩
    · exact old x a hx h1 hra
    · have := (Reach.bounds inv'.wf ha' hra).1; omega
    · exact old y0 a0 (hc.1 y0 hw) ha0 (hr0.trans hra)
  · rw [he.env x hbind] at ha
    exact old x a hx ha hra

theorem separated_run {L : Nat → Prop} : ∀ (prog : List Cmd) {s : DState}, Inv s → Separated L s → (∀ c ∈ prog, Confined L c) → (∀ c ∈ prog, c.Sound) →
    ∃ s', Cmd.runAll prog s = some s' ∧ Inv s' ∧ Separated L s' ∧ (∀ y, ¬ L y → s'.env y = s.env y) ∧
      (∀ y b z, ¬ L y → s.env y = some b → Reach s.heap b z → s'.heap.node z = s.heap.node z) ∧ s.heap.next ≤ s'.heap.next := by
  intro prog
  induction prog with
  | nil => intro s h hs _ _; exact ⟨s, rfl, h, hs, fun _ _ => rfl, fun _ _ _ _ _ _ => rfl, Nat.le_refl _⟩
  | cons c cs ih =>
    intro s h hs hc hso
    obtain ⟨s1, hr, h1, he⟩ := cmd_step h c (hso c (by simp))
    obtain ⟨hs1, henv, hnode⟩ := separated_step h h1 hs (hc c (by simp)) he
    obtain ⟨s2, hr2, h2, hs2, henv2, hnode2, hm⟩ := ih h1 hs1 (fun c hc' => hc c (by simp [hc'])) (fun c hc' => hso c (by simp [hc']))
    refine ⟨s2, ?_, h2, hs2, fun y hy => (henv2 y hy).trans (henv y hy), ?_, Nat.le_trans he.mono hm⟩
    · rcases hr with hr | ⟨e, hr⟩ <;> simp only [Cmd.runAll, hr, hr2]
    · intro y b z hy hb hrz
      rw [hnode2 y b z hy (by rw [henv y hy]; exact hb) ?_, hnode y b z hy hb hrz]
      induction hrz with
      | refl => exact .refl
      | @step u v hu hm ih2 => exact ih2.step (by rw [hnode y b u hy hb hu]; exact hm)

end LP
