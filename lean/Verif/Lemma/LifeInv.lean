import Verif.Model.Life
/-! Invariants of the lifetime model. -/
namespace LP.Life

/-- No client variable and no other object holds `s`. -/
def Private (σ : St) (s : Nat) : Prop := s ∉ σ.held ∧ ∀ i o, σ.obj i = some o → ∀ f ∈ o.fns, s ∉ f.owns

/-- What holds in every reachable state. -/
structure Inv (σ : St) : Prop where
  fresh : ∀ i, σ.n ≤ i → σ.obj i = none
  heldLive : ∀ a ∈ σ.held, σ.obj a ≠ none
  fnLive : ∀ i o, σ.obj i = some o → ∀ f ∈ o.fns, ∀ a ∈ f.owns, σ.obj a ≠ none
  kids : ∀ i o, σ.obj i = some (.bus o) → ∀ c ∈ o.kids, (∃ o', σ.obj c = some (.bus o')) ∧ σ.parent c = some i
  parts : ∀ i o, σ.obj i = some (.bus o) → ∀ c ∈ o.parts, σ.obj c ≠ none ∧ ∀ o', σ.obj c ≠ some (.bus o')
  par : ∀ c p, σ.parent c = some p → p < c ∧ c < σ.n ∧ ∀ o, σ.obj p = some o → ∃ bo, o = .bus bo ∧ c ∈ bo.kids
  fwd : ∀ c o r, σ.obj c = some (.bus o) → o.fwd = some r → c = r ∨
    ∃ p po, σ.parent c = some p ∧ σ.obj p = some (.bus po) ∧ po.fwd = some r
  root : ∀ c o, σ.obj c = some (.bus o) → o.fwd = some c → σ.parent c = none
  act : ∀ a k s p fs, σ.obj a = some (.act k s p fs) → (∃ l, σ.obj s = some (.sub (some ⟨[a], l⟩))) ∧
    (∃ fn, σ.obj p = some (.pub fn)) ∧ Private σ s ∧ Private σ p
  pub : ∀ p b l, σ.obj p = some (.pub (some (b, l))) → b < σ.n ∧ ∀ o, σ.obj b = some o → ∃ bo, o = .bus bo

/-- The bus a forwarding function belongs to is alive, and forwards to itself. -/
theorem fwd_root {σ : St} (h : Inv σ) {r : Nat} : ∀ c o, σ.obj c = some (.bus o) → o.fwd = some r →
    r ≤ c ∧ ∃ ro, σ.obj r = some (.bus ro) ∧ ro.fwd = some r := by
  intro c
  induction c using Nat.strongRecOn with
  | _ c ih =>
    intro o hc hr
    rcases h.fwd c o r hc hr with e | ⟨p, po, e1, e2, e3⟩
    · subst e; exact ⟨Nat.le_refl _, o, hc, hr⟩
    · have hp := (h.par _ _ e1).1
      have := ih p hp po e2 e3
      exact ⟨by omega, this.2⟩

theorem inv_newRoot {σ : St} (h : Inv σ) : Inv ((σ.alloc (.bus ⟨[], [], some σ.n⟩)).hold σ.n) := by
  have hn : σ.parent σ.n = none := by
    cases e : σ.parent σ.n with
    | none => rfl
    | some p => have := h.par _ _ e; omega
  obtain ⟨h1, h2, h3, h4, h5, h6, h7, h10, h8, h9⟩ := h
  refine ⟨?_, ?_, ?_, ?_, ?_, ?_, ?_, ?_, ?_, ?_⟩ <;>
    simp only [St.alloc, St.put, St.hold, Private] at * <;> grind [Obj.fns]

theorem inv_createChild {σ : St} (h : Inv σ) {b : Nat} {o : BusO} {r : Nat} (hb : σ.obj b = some (.bus o))
    (hr : o.fwd = some r) :
    Inv { ((σ.alloc (.bus ⟨[], [], some r⟩)).put b (some (.bus { o with kids := σ.n :: o.kids }))).hold σ.n
            with parent := fun i => if i = σ.n then some b else σ.parent i } := by
  have hrb := (fwd_root h _ _ hb hr).1
  obtain ⟨h1, h2, h3, h4, h5, h6, h7, h10, h8, h9⟩ := h
  have hbn : b < σ.n := by grind
  refine ⟨?_, ?_, ?_, ?_, ?_, ?_, ?fwd, ?root, ?_, ?_⟩
  case fwd =>
    simp only [St.alloc, St.put, St.hold] at *
    intro c o' r' hc hr'
    by_cases hcb : c = b
    · subst hcb
      rw [if_pos rfl] at hc; cases hc
      rcases h7 c o r' hb hr' with h | ⟨p, po, e1, e2, e3⟩
      · exact .inl h
      · have := h6 _ _ e1
        exact .inr ⟨p, po, by rw [if_neg (by omega)]; exact e1, by rw [if_neg (by omega), if_neg (by omega)]; exact e2, e3⟩
    · rw [if_neg hcb] at hc
      by_cases hcn : c = σ.n
      · subst hcn
        rw [if_pos rfl] at hc; cases hc; cases hr'
        exact .inr ⟨b, { o with kids := σ.n :: o.kids }, if_pos rfl, if_pos rfl, hr⟩
      · rw [if_neg hcn] at hc
        rcases h7 c o' r' hc hr' with h | ⟨p, po, e1, e2, e3⟩
        · exact .inl h
        · by_cases hpb : p = b
          · subst hpb; rw [hb] at e2; cases e2
            exact .inr ⟨p, { o with kids := σ.n :: o.kids }, by rw [if_neg hcn]; exact e1, if_pos rfl, e3⟩
          · have : p ≠ σ.n := by have := h6 _ _ e1; omega
            exact .inr ⟨p, po, by rw [if_neg hcn]; exact e1, by rw [if_neg hpb, if_neg this]; exact e2, e3⟩
  case root => simp only [St.alloc, St.put, St.hold] at *; clear h7 h8 h9 h5 h4 h3 h2; grind
  all_goals simp only [St.alloc, St.put, St.hold, Private] at *
  all_goals grind [Obj.fns]

theorem inv_createSub {σ : St} (h : Inv σ) {b : Nat} {o : BusO} {cb : Option Fn} (hb : σ.obj b = some (.bus o))
    (hc : ∀ f ∈ cb, ∀ a ∈ f.owns, a ∈ σ.held) :
    Inv (((σ.alloc (.sub cb)).put b (some (.bus { o with parts := σ.n :: o.parts }))).hold σ.n) := by
  obtain ⟨h1, h2, h3, h4, h5, h6, h7, h10, h8, h9⟩ := h
  have hbn : b < σ.n := by grind
  refine ⟨?_, ?_, ?_, ?_, ?_, ?_, ?_, ?_, ?_, ?_⟩ <;>
    simp only [St.alloc, St.put, St.hold, Private] at * <;> grind [Obj.fns]

theorem inv_createPub {σ : St} (h : Inv σ) {b : Nat} {o : BusO} {l : Option Nat} (hb : σ.obj b = some (.bus o)) :
    Inv (((σ.alloc (.pub (some (b, l)))).put b (some (.bus { o with parts := σ.n :: o.parts }))).hold σ.n) := by
  obtain ⟨h1, h2, h3, h4, h5, h6, h7, h10, h8, h9⟩ := h
  have hbn : b < σ.n := by grind
  refine ⟨?_, ?_, ?_, ?_, ?_, ?_, ?_, ?_, ?_, ?_⟩ <;>
    simp only [St.alloc, St.put, St.hold, Private] at * <;> grind [Obj.fns]

theorem inv_createAct {σ : St} (h : Inv σ) {b : Nat} {o : BusO} {l : Option Nat} {fn : Option Fn} (hb : σ.obj b = some (.bus o))
    (hc : ∀ f ∈ fn.toList, ∀ a ∈ f.owns, a ∈ σ.held) :
    Inv (((((σ.alloc (.sub (some ⟨[σ.n + 2], l⟩))).alloc (.pub (some (b, l)))).alloc
      (.act fn.isSome σ.n (σ.n + 1) fn.toList)).put b
        (some (.bus { o with parts := (σ.n + 2) :: (σ.n + 1) :: σ.n :: o.parts }))).hold (σ.n + 2)) := by
  obtain ⟨h1, h2, h3, h4, h5, h6, h7, h10, h8, h9⟩ := h
  have hbn : b < σ.n := by grind
  refine ⟨?_, ?_, ?_, ?_, ?_, ?_, ?fwd, ?_, ?act, ?_⟩
  case fwd =>
    simp only [St.alloc, St.put, St.hold] at *
    intro c o' r' hc hr'
    have key : ∀ c o', σ.obj c = some (.bus o') → c < σ.n := by grind
    have put : ∀ p po, σ.obj p = some (.bus po) → ∃ po', (if p = b then some (Obj.bus { o with parts := (σ.n + 1 + 1) :: (σ.n + 1) :: σ.n :: o.parts }) else
        if p = σ.n + 1 + 1 then some (Obj.act fn.isSome σ.n (σ.n + 1) fn.toList)
        else if p = σ.n + 1 then some (Obj.pub (some (b, l)))
        else if p = σ.n then some (Obj.sub (some { owns := [σ.n + 1 + 1], lib := l })) else σ.obj p) = some (.bus po') ∧ po'.fwd = po.fwd := by
      intro p po hp
      have := key _ _ hp
      by_cases e : p = b
      · subst e; rw [hb] at hp; cases hp; exact ⟨_, if_pos rfl, rfl⟩
      · exact ⟨po, by rw [if_neg e, if_neg (by omega), if_neg (by omega), if_neg (by omega)]; exact hp, rfl⟩
    have back : ∃ o'', σ.obj c = some (.bus o'') ∧ o''.fwd = o'.fwd := by grind
    obtain ⟨o'', e0, e0'⟩ := back
    rcases h7 c o'' r' e0 (by rw [e0']; exact hr') with h | ⟨p, po, e1, e2, e3⟩
    · exact .inl h
    · obtain ⟨po', e4, e5⟩ := put p po e2
      exact .inr ⟨p, po', e1, e4, by rw [e5]; exact e3⟩
  case act =>
    simp only [St.alloc, St.put, St.hold, Private] at *
    intro a k s p fs ha
    by_cases han : a = σ.n + 2
    · have : s = σ.n ∧ p = σ.n + 1 := by grind
      obtain ⟨rfl, rfl⟩ := this
      subst han
      refine ⟨⟨l, by grind⟩, ⟨some (b, l), by grind⟩, ?_, ?_⟩ <;> grind [Obj.fns]
    · have ha' : σ.obj a = some (.act k s p fs) := by grind
      obtain ⟨⟨l1, i1⟩, ⟨f1, i2⟩, i3, i4⟩ := h8 _ _ _ _ _ ha'
      have hs : s < σ.n ∧ s ≠ b := by grind
      have hp : p < σ.n ∧ p ≠ b := by grind
      refine ⟨⟨l1, by grind⟩, ⟨f1, by grind⟩, ⟨by grind, ?_⟩, ⟨by grind, ?_⟩⟩
      · intro i oi hi f hf
        have i3' := i3.2 i
        have := i3.1
        clear h1 h2 h3 h4 h5 h6 h7 h8 h9 h10 i3 i4
        have cs : oi.fns = [] ∨ oi = .act fn.isSome σ.n (σ.n + 1) fn.toList ∨ oi = .sub (some ⟨[σ.n + 2], l⟩) ∨
            σ.obj i = some oi := by clear ha; grind [Obj.fns]
        rcases cs with g | g | g | g
        · rw [g] at hf; cases hf
        · subst g; intro h'; exact this (hc f hf s h')
        · subst g; simp [Obj.fns] at hf; subst hf; simp; omega
        · exact i3' oi g f hf
      · intro i oi hi f hf
        have i3' := i4.2 i
        have := i4.1
        clear h1 h2 h3 h4 h5 h6 h7 h8 h9 h10 i3 i4
        have cs : oi.fns = [] ∨ oi = .act fn.isSome σ.n (σ.n + 1) fn.toList ∨ oi = .sub (some ⟨[σ.n + 2], l⟩) ∨
            σ.obj i = some oi := by clear ha; grind [Obj.fns]
        rcases cs with g | g | g | g
        · rw [g] at hf; cases hf
        · subst g; intro h'; exact this (hc f hf p h')
        · subst g; simp [Obj.fns] at hf; subst hf; simp; omega
        · exact i3' oi g f hf
  all_goals simp only [St.alloc, St.put, St.hold, Private] at *
  all_goals grind [Obj.fns]

theorem inv_setCb {σ : St} (h : Inv σ) {s : Nat} {old cb : Option Fn} (hs : σ.obj s = some (.sub old)) (hh : s ∈ σ.held)
    (hc : ∀ f ∈ cb, ∀ a ∈ f.owns, a ∈ σ.held) : Inv (σ.put s (some (.sub cb))) := by
  obtain ⟨h1, h2, h3, h4, h5, h6, h7, h10, h8, h9⟩ := h
  refine ⟨?_, ?_, ?_, ?_, ?_, ?_, ?_, ?_, ?_, ?_⟩ <;>
    simp only [St.alloc, St.put, St.hold, Private] at * <;> grind [Obj.fns]

theorem inv_setFns {σ : St} (h : Inv σ) {a : Nat} {k : Bool} {s p : Nat} {fs fs' : List Fn} (hs : σ.obj a = some (.act k s p fs))
    (hc : ∀ f ∈ fs', f ∈ fs ∨ ∀ a ∈ f.owns, a ∈ σ.held) : Inv (σ.put a (some (.act k s p fs'))) := by
  obtain ⟨h1, h2, h3, h4, h5, h6, h7, h10, h8, h9⟩ := h
  have g3 : ∀ f ∈ fs, ∀ x ∈ f.owns, σ.obj x ≠ none := h3 a _ hs
  obtain ⟨⟨g8l, g8a⟩, ⟨g8f, g8b⟩, g8c, g8d⟩ := h8 _ _ _ _ _ hs
  have g8c' : ∀ f ∈ fs, s ∉ f.owns := g8c.2 a _ hs
  have g8d' : ∀ f ∈ fs, p ∉ f.owns := g8d.2 a _ hs
  refine ⟨?_, ?_, ?fn, ?_, ?_, ?_, ?_, ?_, ?act, ?_⟩
  case fn =>
    simp only [St.put] at *
    intro i o hi f hf x hx
    by_cases e : i = a
    · subst e; rw [if_pos rfl] at hi; cases hi
      have : σ.obj x ≠ none := by
        rcases hc f hf with h | h
        · exact g3 f h x hx
        · exact h2 x (h x hx)
      grind
    · rw [if_neg e] at hi; have := h3 i o hi f hf x hx; grind
  case act =>
    have priv : ∀ x, Private σ x → Private (σ.put a (some (.act k s p fs'))) x := by
      intro x hx
      refine ⟨hx.1, ?_⟩
      intro i o hi f hf
      simp only [St.put] at hi
      by_cases e : i = a
      · subst e; rw [if_pos rfl] at hi; cases hi
        rcases hc f hf with h | h
        · exact hx.2 i _ hs f h
        · exact fun h' => hx.1 (h x h')
      · rw [if_neg e] at hi; exact hx.2 i o hi f hf
    intro a' k' s' p' fs'' ha'
    have : ∃ fs0, σ.obj a' = some (.act k' s' p' fs0) := by simp only [St.put] at ha'; grind
    obtain ⟨fs0, ha''⟩ := this
    obtain ⟨⟨l1, i1⟩, ⟨f1, i2⟩, i3, i4⟩ := h8 _ _ _ _ _ ha''
    refine ⟨⟨l1, ?_⟩, ⟨f1, ?_⟩, priv _ i3, priv _ i4⟩ <;> simp only [St.put] <;> grind
  all_goals simp only [St.put, Private] at *
  all_goals grind [Obj.fns]

theorem inv_clearPub {σ : St} (h : Inv σ) {p : Nat} {fn : Option (Nat × Option Nat)} (hs : σ.obj p = some (.pub fn)) :
    Inv (σ.put p (some (.pub none))) := by
  obtain ⟨h1, h2, h3, h4, h5, h6, h7, h10, h8, h9⟩ := h
  refine ⟨?_, ?_, ?_, ?_, ?_, ?_, ?_, ?_, ?_, ?_⟩ <;>
    simp only [St.alloc, St.put, St.hold, Private] at * <;> grind [Obj.fns]

theorem inv_parts {σ : St} (h : Inv σ) {b : Nat} {o : BusO} {ps : List Nat} (hb : σ.obj b = some (.bus o))
    (hp : ∀ x ∈ ps, x ∈ o.parts) : Inv (σ.put b (some (.bus { o with parts := ps }))) := by
  obtain ⟨h1, h2, h3, h4, h5, h6, h7, h10, h8, h9⟩ := h
  refine ⟨?_, ?_, ?_, ?_, ?_, ?_, ?_, ?_, ?_, ?_⟩ <;>
    simp only [St.alloc, St.put, St.hold, Private] at * <;> grind [Obj.fns]

theorem inv_hold {σ : St} (h : Inv σ) {a : Nat} (ha : σ.obj a ≠ none)
    (hp : ∀ x k s p fs, σ.obj x = some (.act k s p fs) → a ≠ s ∧ a ≠ p) : Inv (σ.hold a) := by
  obtain ⟨h1, h2, h3, h4, h5, h6, h7, h10, h8, h9⟩ := h
  refine ⟨?_, ?_, ?_, ?_, ?_, ?_, ?_, ?_, ?_, ?_⟩ <;>
    simp only [St.alloc, St.put, St.hold, Private] at * <;> grind [Obj.fns]

theorem inv_drop {σ : St} (h : Inv σ) {l : List Nat} (hl : ∀ x ∈ l, x ∈ σ.held) (c : List Nat) :
    Inv { σ with held := l, closed := c } := by
  obtain ⟨h1, h2, h3, h4, h5, h6, h7, h10, h8, h9⟩ := h
  refine ⟨?_, ?_, ?_, ?_, ?_, ?_, ?_, ?_, ?_, ?_⟩ <;>
    simp only [St.alloc, St.put, St.hold, Private] at * <;> grind [Obj.fns]

end LP.Life
