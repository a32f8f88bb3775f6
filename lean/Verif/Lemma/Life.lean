import Verif.Lemma.LifeInv
/-! `Detach`, destruction, and every step keep the invariant. -/
namespace LP.Life

/-- Nothing changed but that some buses no longer forward. -/
structure Cut (σ σ' : St) : Prop where
  n : σ'.n = σ.n
  parent : σ'.parent = σ.parent
  held : σ'.held = σ.held
  closed : σ'.closed = σ.closed
  obj : ∀ i, σ'.obj i = σ.obj i ∨ ∃ o, σ.obj i = some (.bus o) ∧ σ'.obj i = some (.bus { o with fwd := none })

theorem Cut.refl (σ : St) : Cut σ σ := ⟨rfl, rfl, rfl, rfl, fun _ => .inl rfl⟩

theorem Cut.trans {a b c : St} (h : Cut a b) (k : Cut b c) : Cut a c := by
  obtain ⟨h1, h2, h3, h4, h5⟩ := h
  obtain ⟨k1, k2, k3, k4, k5⟩ := k
  exact ⟨by grind, by grind, by grind, by grind, fun i => by have := h5 i; have := k5 i; grind⟩

theorem cut_put {σ : St} {b : Nat} {o : BusO} (h : σ.obj b = some (.bus o)) :
    Cut σ (σ.put b (some (.bus { o with fwd := none }))) := by
  refine ⟨rfl, rfl, rfl, rfl, fun i => ?_⟩
  by_cases e : i = b
  · subst e; exact .inr ⟨o, h, if_pos rfl⟩
  · exact .inl (if_neg e)

theorem cut_detach (k : Nat) : ∀ b σ, Cut σ (detach k b σ) := by
  induction k with
  | zero => intro b σ; exact Cut.refl _
  | succ k ih =>
    intro b σ
    unfold detach
    split
    · rename_i o hb
      have : ∀ (ks : List Nat) σ', Cut σ σ' → Cut σ (ks.foldl (fun σ c => detach k c σ) σ') := by
        intro ks
        induction ks with
        | nil => intro σ' h; exact h
        | cons c ks ihk => intro σ' h; exact ihk _ (h.trans (ih c σ'))
      exact this _ _ (cut_put hb)
    · exact Cut.refl _

/-- A bus seen after `Cut` was there before. -/
theorem Cut.back {σ σ' : St} (h : Cut σ σ') {i : Nat} {x : Obj} (hx : σ'.obj i = some x) :
    σ.obj i = some x ∨ ∃ o, σ.obj i = some (.bus o) ∧ x = .bus { o with fwd := none } := by
  rcases h.obj i with e | ⟨o, e1, e2⟩
  · exact .inl (by rw [← e]; exact hx)
  · rw [hx] at e2; cases e2; exact .inr ⟨o, e1, rfl⟩

/-- The forwarding invariant, except for some buses. -/
def FwdEx (σ : St) (S : List Nat) : Prop := ∀ c o r, c ∉ S → σ.obj c = some (.bus o) → o.fwd = some r → c = r ∨
    ∃ p po, σ.parent c = some p ∧ σ.obj p = some (.bus po) ∧ po.fwd = some r

/-- The kids are registered under their parents. -/
structure Kids (σ : St) : Prop where
  fresh : ∀ i, σ.n ≤ i → σ.obj i = none
  kids : ∀ i o, σ.obj i = some (.bus o) → ∀ c ∈ o.kids, σ.parent c = some i
  par : ∀ c p, σ.parent c = some p → p < c ∧ ∀ o, σ.obj p = some (.bus o) → c ∈ o.kids

theorem Inv.toKids {σ : St} (h : Inv σ) : Kids σ where
  fresh := h.fresh
  kids := fun i o hi c hc => (h.kids i o hi c hc).2
  par := fun c p hp => by
    have := h.par c p hp
    refine ⟨this.1, fun o ho => ?_⟩
    obtain ⟨bo, e, e'⟩ := this.2.2 _ ho
    cases e; exact e'

theorem Cut.kids {σ σ' : St} (h : Cut σ σ') (k : Kids σ) : Kids σ' := by
  refine ⟨fun i hi => ?_, fun i o hi c hc => ?_, fun c p hp => ⟨?_, fun o ho => ?_⟩⟩
  · have := k.fresh i (by rw [← h.n]; exact hi)
    rcases h.obj i with e | ⟨o, e, _⟩ <;> grind
  · rw [h.parent]
    rcases h.back hi with e | ⟨o', e, e'⟩
    · exact k.kids i o e c hc
    · cases e'; exact k.kids i o' e c hc
  · rw [h.parent] at hp; exact (k.par c p hp).1
  · rw [h.parent] at hp
    rcases h.back ho with e | ⟨o', e, e'⟩
    · exact (k.par c p hp).2 _ e
    · cases e'; exact (k.par c p hp).2 o' e

theorem fwdEx_detach (k : Nat) : ∀ b σ T, Kids σ → σ.n ≤ b + k → FwdEx σ (b :: T) → FwdEx (detach k b σ) T := by
  induction k with
  | zero =>
    intro b σ T hk hb h c o r hc ho hr
    refine h c o r ?_ ho hr
    intro hm
    rcases List.mem_cons.1 hm with e | e
    · subst e
      have := hk.fresh c (by omega)
      simp only [detach] at ho
      rw [this] at ho; cases ho
    · exact hc e
  | succ k ih =>
    intro b σ T hk hb h
    unfold detach
    split
    · rename_i o hbo
      have fold : ∀ (ks : List Nat) σ', Kids σ' → σ'.n = σ.n → (∀ c ∈ ks, b < c) → FwdEx σ' (ks ++ T) →
          FwdEx (ks.foldl (fun σ c => detach k c σ) σ') T := by
        intro ks
        induction ks with
        | nil => intro σ' _ _ _ h; exact h
        | cons c ks ihk =>
          intro σ' hk' hn hlt h'
          have hc := hlt c (by simp)
          have ct := cut_detach k c σ'
          refine ihk _ (ct.kids hk') (by rw [ct.n, hn]) (fun x hx => hlt x (by simp [hx])) ?_
          exact ih c σ' (ks ++ T) hk' (by omega) h'
      have ct := cut_put hbo
      refine fold o.kids _ (ct.kids hk) rfl (fun c hc => (hk.par _ _ (hk.kids b o hbo c hc)).1) ?_
      intro c o' r hc ho hr
      simp only [St.put] at ho ⊢
      by_cases e : c = b
      · rw [if_pos e] at ho; cases ho; cases hr
      · rw [if_neg e] at ho
        rcases h c o' r (by simp; exact ⟨e, fun x => hc (by simp [x])⟩) ho hr with e1 | ⟨p, po, e1, e2, e3⟩
        · exact .inl e1
        · by_cases e4 : p = b
          · subst e4
            exact absurd ((hk.par _ _ e1).2 o hbo) (fun x => hc (by simp [x]))
          · exact .inr ⟨p, po, e1, by rw [if_neg e4]; exact e2, e3⟩
    · rename_i hbo
      intro c o r hc ho hr
      refine h c o r ?_ ho hr
      intro hm
      rcases List.mem_cons.1 hm with e | e
      · subst e; exact hbo _ ho
      · exact hc e

theorem inv_cut {σ σ' : St} (h : Inv σ) (ct : Cut σ σ') (hf : FwdEx σ' []) : Inv σ' := by
  have fns : ∀ i o, σ'.obj i = some o → ∀ f ∈ o.fns, σ.obj i = some o := by
    intro i o hi f hf
    rcases ct.back hi with e | ⟨o', e, e'⟩
    · exact e
    · subst e'; cases hf
  have live : ∀ i, σ.obj i ≠ none → σ'.obj i ≠ none := by
    intro i hi
    rcases ct.obj i with e | ⟨o, _, e⟩
    · rw [e]; exact hi
    · rw [e]; exact fun h => by cases h
  have same : ∀ i o, (∀ b, o ≠ Obj.bus b) → (σ'.obj i = some o ↔ σ.obj i = some o) := by
    intro i o ho
    rcases ct.obj i with e | ⟨b, e, e'⟩
    · rw [e]
    · rw [e, e']
      exact ⟨fun h => absurd (Option.some.inj h).symm (ho _), fun h => absurd (Option.some.inj h).symm (ho _)⟩
  have bus : ∀ i o, σ'.obj i = some (.bus o) → ∃ o', σ.obj i = some (.bus o') ∧ o'.kids = o.kids ∧ o'.parts = o.parts ∧
      (o.fwd = none ∨ o = o') := by
    intro i o hi
    rcases ct.back hi with e | ⟨o', e, e'⟩
    · exact ⟨o, e, rfl, rfl, .inr rfl⟩
    · cases e'; exact ⟨o', e, rfl, rfl, .inl rfl⟩
  have bus' : ∀ i o, σ.obj i = some (.bus o) → ∃ o', σ'.obj i = some (.bus o') ∧ o'.kids = o.kids := by
    intro i o hi
    rcases ct.obj i with e | ⟨o', e, e'⟩
    · exact ⟨o, by rw [e]; exact hi, rfl⟩
    · rw [hi] at e; cases e; exact ⟨_, e', rfl⟩
  have priv : ∀ s, Private σ s → Private σ' s := by
    intro s hs
    refine ⟨by rw [ct.held]; exact hs.1, fun i o hi f hf => hs.2 i o (fns i o hi f hf) f hf⟩
  refine ⟨?_, ?_, ?_, ?_, ?_, ?_, ?_, ?_, ?_, ?_⟩
  · exact (ct.kids h.toKids).fresh
  · intro a ha; rw [ct.held] at ha; exact live a (h.heldLive a ha)
  · intro i o hi f hf a ha
    exact live a (h.fnLive i o (fns i o hi f hf) f hf a ha)
  · intro i o hi c hc
    obtain ⟨o', e, e1, e2, e3⟩ := bus i o hi
    obtain ⟨⟨o'', g⟩, g'⟩ := h.kids i o' e c (by rw [e1]; exact hc)
    obtain ⟨o3, g3, _⟩ := bus' c o'' g
    exact ⟨⟨o3, g3⟩, by rw [ct.parent]; exact g'⟩
  · intro i o hi c hc
    obtain ⟨o', e, e1, e2, e3⟩ := bus i o hi
    obtain ⟨g, g'⟩ := h.parts i o' e c (by rw [e2]; exact hc)
    refine ⟨live _ g, fun o'' h'' => ?_⟩
    obtain ⟨o3, g3, _⟩ := bus c o'' h''
    exact g' _ g3
  · intro c p hp
    rw [ct.parent] at hp
    obtain ⟨g1, g2, g3⟩ := h.par c p hp
    refine ⟨g1, by rw [ct.n]; exact g2, fun o ho => ?_⟩
    rcases ct.back ho with e | ⟨o', e, e'⟩
    · exact g3 o e
    · obtain ⟨bo, e1, e2⟩ := g3 _ e
      cases e1; exact ⟨_, e', e2⟩
  · intro c o r hc hr
    exact hf c o r (by simp) hc hr
  · intro c o hc hr
    obtain ⟨o', e, e1, e2, e3⟩ := bus c o hc
    rcases e3 with e3 | e3
    · rw [e3] at hr; cases hr
    · subst e3; rw [ct.parent]; exact h.root c o e hr
  · intro a k s p fs ha
    rw [same _ _ (by intro b hb; cases hb)] at ha
    obtain ⟨⟨l, g1⟩, ⟨fn, g2⟩, g3, g4⟩ := h.act a k s p fs ha
    exact ⟨⟨l, (same _ _ (by intro b hb; cases hb)).2 g1⟩, ⟨fn, (same _ _ (by intro b hb; cases hb)).2 g2⟩, priv _ g3, priv _ g4⟩
  · intro p b l hp
    rw [same _ _ (by intro b hb; cases hb)] at hp
    obtain ⟨g1, g2⟩ := h.pub p b l hp
    refine ⟨by rw [ct.n]; exact g1, fun o ho => ?_⟩
    rcases ct.back ho with e | ⟨o', e, e'⟩
    · exact g2 o e
    · exact ⟨_, e'⟩

theorem inv_detach {σ : St} (h : Inv σ) (b : Nat) : Inv (detach σ.n b σ) :=
  inv_cut h (cut_detach _ _ _) (fwdEx_detach σ.n b σ [] h.toKids (by omega) (fun c o r _ => h.fwd c o r))

theorem unreferenced_iff {σ : St} (h : ∀ i, σ.n ≤ i → σ.obj i = none) {a : Nat} :
    σ.unreferenced a = true ↔ a ∉ σ.held ∧ ∀ i o, σ.obj i = some o → a ∉ o.owned := by
  simp only [St.unreferenced, Bool.and_eq_true, Bool.not_eq_true', List.all_eq_true, List.mem_range]
  constructor
  · rintro ⟨h1, h2⟩
    refine ⟨by simpa using h1, fun i o hi => ?_⟩
    have hn : i < σ.n := by
      apply Nat.lt_of_not_le; intro hn; rw [h i hn] at hi; cases hi
    have := h2 i hn
    rw [hi] at this
    simpa using this
  · rintro ⟨h1, h2⟩
    refine ⟨by simpa using h1, fun i _ => ?_⟩
    cases e : σ.obj i with
    | none => rfl
    | some o => simpa using h2 i o e

theorem settled_iff {σ : St} (h : ∀ i, σ.n ≤ i → σ.obj i = none) :
    σ.settled = true ↔ ∀ i, σ.obj i ≠ none → i ∈ σ.held ∨ ∃ j o, σ.obj j = some o ∧ i ∈ o.owned := by
  simp only [St.settled, List.all_eq_true, List.mem_range, Bool.or_eq_true, Bool.not_eq_true']
  constructor
  · intro hs i hi
    have hn : i < σ.n := by
      apply Nat.lt_of_not_le; intro hn; exact hi (h i hn)
    rcases hs i hn with e | e
    · rw [Option.isNone_iff_eq_none] at e; exact absurd e hi
    · by_cases h1 : i ∈ σ.held
      · exact .inl h1
      · by_cases h2 : ∃ j o, σ.obj j = some o ∧ i ∈ o.owned
        · exact .inr h2
        · have : σ.unreferenced i = true := (unreferenced_iff h).2 ⟨h1, fun j o hj hm => h2 ⟨j, o, hj, hm⟩⟩
          rw [this] at e; cases e
  · intro hs i _
    cases e : σ.obj i with
    | none => left; rfl
    | some o =>
      right
      have := hs i (by rw [e]; exact fun h => by cases h)
      cases hu : σ.unreferenced i with
      | false => rfl
      | true =>
        rw [unreferenced_iff h] at hu
        rcases this with h1 | ⟨j, o', h1, h2⟩
        · exact absurd h1 hu.1
        · exact absurd h2 (hu.2 j o' h1)

theorem cut_owned {σ σ' : St} (ct : Cut σ σ') {i : Nat} {o : Obj} (h : σ'.obj i = some o) :
    ∃ o', σ.obj i = some o' ∧ o'.owned = o.owned := by
  rcases ct.back h with e | ⟨o', e, e'⟩
  · exact ⟨o, e, rfl⟩
  · subst e'; exact ⟨_, e, rfl⟩

theorem inv_remove {σ : St} (h : Inv σ) {a : Nat} (hh : a ∉ σ.held) (ho : ∀ i o, σ.obj i = some o → a ∉ o.owned)
    (hf : ∀ o, σ.obj a = some (.bus o) → o.fwd = none) : Inv (σ.put a none) := by
  have o1 : ∀ i f o, σ.obj i = some o → f ∈ o.fns → a ∉ f.owns := by
    intro i f o hi hf hm
    refine ho i o hi ?_
    cases o with
    | bus b => cases hf
    | sub cb => exact List.mem_flatMap.2 ⟨f, hf, hm⟩
    | pub fn => cases hf
    | act k s p fs => exact List.mem_cons_of_mem _ (List.mem_cons_of_mem _ (List.mem_flatMap.2 ⟨f, hf, hm⟩))
  have o2 : ∀ i o, σ.obj i = some (.bus o) → a ∉ o.kids ∧ a ∉ o.parts := by
    intro i o hi
    have := ho i _ hi
    simpa [Obj.owned] using this
  have o3 : ∀ i k s p fs, σ.obj i = some (.act k s p fs) → a ≠ s ∧ a ≠ p := by
    intro i k s p fs hi
    have := ho i _ hi
    simp only [Obj.owned, List.mem_cons, not_or] at this
    exact ⟨this.1, this.2.1⟩
  have pv : ∀ s, Private σ s → Private (σ.put a none) s := by
    intro s hs
    refine ⟨hs.1, fun i o hi => ?_⟩
    simp only [St.put] at hi
    split at hi
    · cases hi
    · exact hs.2 i o hi
  obtain ⟨h1, h2, h3, h4, h5, h6, h7, h10, h8, h9⟩ := h
  clear ho
  refine ⟨?_, ?_, ?_, ?_, ?_, ?_, ?fwd, ?_, ?actc, ?_⟩
  case actc =>
    intro a' k s p fs ha
    have ha' : σ.obj a' = some (.act k s p fs) := by simp only [St.put] at ha; grind
    obtain ⟨⟨l, g1⟩, ⟨fn, g2⟩, g3, g4⟩ := h8 a' k s p fs ha'
    have := o3 _ _ _ _ _ ha'
    exact ⟨⟨l, by simp only [St.put]; grind⟩, ⟨fn, by simp only [St.put]; grind⟩, pv _ g3, pv _ g4⟩
  case fwd =>
    intro c o r hc hr
    simp only [St.put] at hc ⊢
    by_cases e : c = a
    · rw [if_pos e] at hc; cases hc
    · rw [if_neg e] at hc
      rcases h7 c o r hc hr with e1 | ⟨p, po, e1, e2, e3⟩
      · exact .inl e1
      · by_cases e4 : p = a
        · subst e4; rw [hf _ e2] at e3; cases e3
        · exact .inr ⟨p, po, e1, by rw [if_neg e4]; exact e2, e3⟩
  all_goals simp only [St.put] at *
  all_goals grind

/-- After `Detach` a bus does not forward. -/
theorem detach_fwd {σ : St} (k : Nat) (b : Nat) (hk : Kids σ) (hb : σ.n ≤ b + k) {o : BusO}
    (h : (detach k b σ).obj b = some (.bus o)) : o.fwd = none := by
  cases k with
  | zero =>
    have := hk.fresh b (by omega)
    simp only [detach] at h; rw [this] at h; cases h
  | succ k =>
    unfold detach at h
    split at h
    · rename_i o' hbo
      have : ∀ (ks : List Nat) σ', (∀ o, σ'.obj b = some (.bus o) → o.fwd = none) →
          ∀ o, (ks.foldl (fun σ c => detach k c σ) σ').obj b = some (.bus o) → o.fwd = none := by
        intro ks
        induction ks with
        | nil => intro σ' h; exact h
        | cons c ks ih =>
          intro σ' h
          refine ih _ (fun o ho => ?_)
          rcases (cut_detach k c σ').back ho with e | ⟨o', _, e⟩
          · exact h o e
          · cases e; rfl
      refine this _ _ (fun o ho => ?_) o h
      simp only [St.put] at ho
      rw [if_pos trivial] at ho; cases ho; rfl
    · rename_i hbo
      exact absurd h (hbo o)

theorem inv_destroy {σ : St} (h : Inv σ) {a : Nat} (hu : σ.unreferenced a = true) :
    Inv ((body σ a).put a none) := by
  rw [unreferenced_iff h.fresh] at hu
  have ct := cut_detach σ.n a σ
  refine inv_remove (inv_detach h a) (by rw [ct.held]; exact hu.1) (fun i o hi => ?_)
    (fun o ho => detach_fwd σ.n a h.toKids (by omega) ho)
  obtain ⟨o', e, e'⟩ := cut_owned ct hi
  rw [← e']; exact hu.2 i o' e

theorem mayUse_owns {σ : St} {f : Fn} (h : σ.mayUse f = true) : (∀ a ∈ f.owns, a ∈ σ.held) ∧ σ.runs f.lib = true := by
  simp only [St.mayUse, Bool.and_eq_true, List.all_eq_true] at h
  exact ⟨fun a ha => by simpa using h.1 a ha, h.2⟩

theorem publish_to {σ σ' : St} {p : Nat} (h : publish σ p = .to σ') : σ' = σ := by
  unfold publish forward at h
  grind

theorem forward_to {σ σ' : St} {o : BusO} (h : forward σ o = .to σ') : σ' = σ := by
  unfold forward at h
  grind

theorem held_private {σ : St} (h : Inv σ) {a : Nat} (ha : a ∈ σ.held) :
    ∀ x k s p fs, σ.obj x = some (.act k s p fs) → a ≠ s ∧ a ≠ p := by
  intro x k s p fs hx
  obtain ⟨_, _, g3, g4⟩ := h.act x k s p fs hx
  exact ⟨fun e => g3.1 (e ▸ ha), fun e => g4.1 (e ▸ ha)⟩

theorem inv_call {σ σ' : St} (h : Inv σ) {a : Act} (hs : call σ a = .to σ') : Inv σ' := by
  cases a with
  | newRoot => cases hs; exact inv_newRoot h
  | createChild b =>
    simp only [call] at hs
    repeat' split at hs
    all_goals cases hs
    · exact h
    · exact inv_createChild h (by assumption) (by assumption)
  | getChild b c =>
    simp only [call] at hs
    repeat' split at hs
    all_goals cases hs
    rename_i o hb hc
    obtain ⟨⟨o', g⟩, _⟩ := h.kids _ _ hb _ hc
    refine inv_hold h (by rw [g]; exact fun h => by cases h) ?_
    intro x k s p fs hx
    obtain ⟨⟨l, g1⟩, ⟨fn, g2⟩, _⟩ := h.act x k s p fs hx
    exact ⟨fun e => (by rw [← e, g] at g1; cases g1), fun e => (by rw [← e, g] at g2; cases g2)⟩
  | createSub b cb =>
    simp only [call] at hs
    repeat' split at hs
    all_goals cases hs
    rename_i hh _ o hb
    refine inv_createSub h hb ?_
    intro f hf
    have := hh.2; rw [hf] at this
    exact (mayUse_owns this).1
  | createPub b lib =>
    simp only [call] at hs
    repeat' split at hs
    all_goals cases hs
    exact inv_createPub h (by assumption)
  | createAct b fn lib =>
    simp only [call] at hs
    repeat' split at hs
    all_goals cases hs
    rename_i hh _ o hb
    refine inv_createAct h hb ?_
    intro f hf
    cases fn with
    | none => cases hf
    | some g => simp at hf; subst hf; exact (mayUse_owns hh.2.2).1
  | setCb s cb =>
    simp only [call] at hs
    repeat' split at hs
    all_goals cases hs
    rename_i hh _ o hb _
    refine inv_setCb h hb hh.1 ?_
    intro f hf
    have := hh.2; rw [hf] at this
    exact (mayUse_owns this).1
  | request a fn =>
    simp only [call] at hs
    repeat' split at hs
    all_goals first | (cases hs; done) | skip
    rename_i hh _ s p fs ha
    cases publish_to hs
    refine inv_setFns h ha ?_
    intro f hf
    rcases List.mem_cons.1 hf with e | e
    · subst e; exact .inr (mayUse_owns hh.2).1
    · exact .inl e
  | erase a i =>
    simp only [call] at hs
    repeat' split at hs
    all_goals cases hs
    exact inv_setFns h (by assumption) (fun f hf => .inl (List.mem_of_mem_eraseIdx hf))
  | respond a =>
    simp only [call] at hs
    repeat' split at hs
    all_goals first | (cases hs; done) | (cases publish_to hs; exact h)
  | delete b p =>
    simp only [call] at hs
    repeat' split at hs
    all_goals cases hs
    · rename_i hh _ _ o cb hb hp _
      have i1 := inv_setCb (cb := none) h hp hh.2 (by intro f hf; cases hf)
      refine inv_parts (ps := o.parts.filter (fun i => i != p)) i1 ?_ (fun x hx => (List.mem_filter.1 hx).1)
      simp only [St.put]; rw [if_neg]; exact hb
      intro e; subst e; rw [hb] at hp; cases hp
    · rename_i hh _ _ o cb hb hp _
      have i1 := inv_clearPub h hp
      refine inv_parts (ps := o.parts.filter (fun i => i != p)) i1 ?_ (fun x hx => (List.mem_filter.1 hx).1)
      simp only [St.put]; rw [if_neg]; exact hb
      intro e; subst e; rw [hb] at hp; cases hp
  | publish p =>
    simp only [call] at hs
    repeat' split at hs
    all_goals first | (cases hs; done) | (cases publish_to hs; exact h)
  | busPublish b =>
    simp only [call] at hs
    repeat' split at hs
    all_goals first | (cases hs; done) | (cases forward_to hs; exact h)
  | detach b =>
    simp only [call] at hs
    repeat' split at hs
    all_goals cases hs
    exact inv_detach h b
  | deliver b s i =>
    simp only [call] at hs
    repeat' split at hs
    all_goals first | (cases hs; done) | (cases hs; exact h)
  | copy a =>
    simp only [call] at hs
    repeat' split at hs
    all_goals cases hs
    rename_i ha
    exact inv_hold h (h.heldLive a ha) (held_private h ha)
  | captured i a =>
    simp only [call] at hs
    repeat' split at hs
    all_goals cases hs
    rename_i o ho hc
    simp only [List.any_eq_true, Bool.and_eq_true] at hc
    obtain ⟨f, hf, hfa, _⟩ := hc
    have hfa : a ∈ f.owns := by simpa using hfa
    refine inv_hold h (h.fnLive i o ho f hf a hfa) ?_
    intro x k s p fs hx
    obtain ⟨_, _, g3, g4⟩ := h.act x k s p fs hx
    exact ⟨fun e => g3.2 i o ho f hf (e ▸ hfa), fun e => g4.2 i o ho f hf (e ▸ hfa)⟩
  | drop a =>
    simp only [call] at hs
    repeat' split at hs
    all_goals cases hs
    exact inv_drop h (fun x hx => List.mem_of_mem_erase hx) σ.closed
  | close l =>
    cases hs
    exact inv_drop h (fun x hx => hx) _
  | destroy a => cases hs

theorem destroy_to {σ σ' : St} {a : Nat} (hs : destroy σ a = .to σ') :
    σ.unreferenced a = true ∧ (∃ o, σ.obj a = some o ∧ σ.stale o = false) ∧ σ' = (body σ a).put a none := by
  unfold destroy at hs
  split at hs
  · cases hs
  · rename_i o ho
    split at hs
    · rename_i hu
      split at hs
      · cases hs
      · rename_i hst
        cases hs; exact ⟨hu, ⟨o, ho, by simpa using hst⟩, rfl⟩
    · cases hs

theorem step_to {σ σ' : St} {a : Act} (hs : step σ a = .to σ') :
    (∃ x, a = .destroy x ∧ destroy σ x = .to σ') ∨ (σ.settled = true ∧ call σ a = .to σ') := by
  unfold step at hs
  split at hs
  · exact .inl ⟨_, rfl, hs⟩
  · split at hs
    · rename_i hst; exact .inr ⟨hst, hs⟩
    · cases hs

theorem inv_step {σ σ' : St} (h : Inv σ) {a : Act} (hs : step σ a = .to σ') : Inv σ' := by
  rcases step_to hs with ⟨x, _, e⟩ | ⟨_, e⟩
  · obtain ⟨hu, _, e⟩ := destroy_to e
    subst e; exact inv_destroy h hu
  · exact inv_call h e

theorem exec_cons {σ σ' : St} {a : Act} {as : List Act} (h : exec σ (a :: as) = .to σ') :
    ∃ σ1, step σ a = .to σ1 ∧ exec σ1 as = .to σ' := by
  simp only [exec] at h
  split at h
  · exact ⟨_, by assumption, h⟩
  · cases h
  · cases h

/-- Invariants along an execution. -/
theorem exec_ind {P : St → Prop} (hP : ∀ σ σ' a, P σ → step σ a = .to σ' → P σ') :
    ∀ (as : List Act) σ σ', P σ → exec σ as = .to σ' → P σ' := by
  intro as
  induction as with
  | nil => intro σ σ' h e; cases e; exact h
  | cons a as ih =>
    intro σ σ' h e
    obtain ⟨σ1, e1, e2⟩ := exec_cons e
    exact ih σ1 σ' (hP _ _ _ h e1) e2

theorem inv_init : Inv init := by
  refine ⟨?_, ?_, ?_, ?_, ?_, ?_, ?_, ?_, ?_, ?_⟩ <;> simp [init]

theorem inv_exec {σ σ' : St} {as : List Act} (h : Inv σ) (e : exec σ as = .to σ') : Inv σ' :=
  exec_ind (fun _ _ _ h e => inv_step h e) as σ σ' h e

end LP.Life
