import Verif.Spec.Interleave
import Verif.Lemma.Observe
import Verif.Lemma.Query
/-!
# Lemmas about interleavings of threads that use Datagrams
-/
namespace LP.Interleave
open Tree

/-- The variables of `t` have the same documents. -/
def Agree (own : Nat → Nat) (t : Nat) (l st : Store) : Prop := ∀ v, own v = t → l v = st v

/-- The documents of one thread alone. -/
def lstep (l : Store) : Ev → Store × Option Exn
  | .does c => l.step c
  | .got z d => (l.set z d, none)

/-- The specification run over several events. -/
def lsteps (l : Store) : List Ev → Store × List (Option Exn)
  | [] => (l, [])
  | e :: es => let r := lstep l e; let q := lsteps r.1 es; (q.1, r.2 :: q.2)

theorem edit_frame {st : Store} {x v : Nat} {e : Edit} (h : v ≠ x) : (st.edit x e).1 v = st v := by
  unfold Store.edit
  split
  · rfl
  · simp [Store.set, h]

/-- A statement changes the documents of variables it names only; a copy changes only the new variable. -/
theorem step_frame {st : Store} {c : Stmt} {v : Nat} (h : v ∉ vars c ∨ ∃ z y, c = .declCopy z y ∧ v ≠ z) :
    (st.step c).1 v = st v := by
  cases c with
  | declCopy x y =>
    have hx : v ≠ x := by
      rcases h with h | ⟨z, y', e, h⟩
      · simp [vars] at h; exact h.1
      · cases e; exact h
    simp only [Store.step]
    split
    · rfl
    · simp [Store.set, hx]
  | assignInto x p y =>
    have hx : v ≠ x := by
      rcases h with h | ⟨z, y', e, h⟩
      · simp [vars] at h; exact h.1
      · cases e
    simp only [Store.step]
    split
    · split
      · split
        · simp [Store.set, hx]
        · exact edit_frame hx
      · exact edit_frame hx
    · rfl
  | assignFrom x y q =>
    have hx : v ≠ x ∧ v ≠ y := by
      rcases h with h | ⟨z, y', e, h⟩
      · simpa [vars] using h
      · cases e
    simp only [Store.step]
    split
    · split <;> simp [Store.set, hx.1, hx.2]
    · rfl
  | decl x ty =>
    have hx : v ≠ x := by
      rcases h with h | ⟨z, y', e, h⟩
      · simpa [vars] using h
      · cases e
    simp [Store.step, Store.set, hx]
  | declVal x ty =>
    have hx : v ≠ x := by
      rcases h with h | ⟨z, y', e, h⟩
      · simpa [vars] using h
      · cases e
    simp [Store.step, Store.set, hx]
  | _ =>
    rcases h with h | ⟨z, y', e, h⟩
    · simp [vars] at h
      exact edit_frame h
    · cases e

theorem set_agree {own : Nat → Nat} {t x : Nat} {l st : Store} {d : Tree} (h : Agree own t l st) :
    Agree own t (l.set x d) (st.set x d) := by
  intro v hv
  simp only [Store.set]
  split
  · rfl
  · exact h v hv

theorem edit_agree {own : Nat → Nat} {t x : Nat} {l st : Store} {e : Edit} (h : Agree own t l st) (hx : own x = t) :
    Agree own t (l.edit x e).1 (st.edit x e).1 ∧ (l.edit x e).2 = (st.edit x e).2 := by
  unfold Store.edit
  rw [h x hx]
  split
  · exact ⟨h, rfl⟩
  · exact ⟨set_agree h, rfl⟩

/-- A statement depends on the documents of the variables it names only. -/
theorem step_agree {own : Nat → Nat} {t : Nat} {l st : Store} {c : Stmt} (h : Agree own t l st)
    (hv : ∀ v ∈ vars c, own v = t) : Agree own t (l.step c).1 (st.step c).1 ∧ (l.step c).2 = (st.step c).2 := by
  cases c with
  | decl x ty => exact ⟨set_agree h, rfl⟩
  | declVal x ty => exact ⟨set_agree h, rfl⟩
  | declCopy x y =>
    simp only [Store.step]
    rw [h y (hv y (by simp [vars]))]
    split
    · exact ⟨h, rfl⟩
    · exact ⟨set_agree h, rfl⟩
  | assignInto x p y =>
    have hx := hv x (by simp [vars])
    simp only [Store.step]
    rw [h x hx, h y (hv y (by simp [vars]))]
    split
    · split
      · split
        · exact ⟨set_agree h, rfl⟩
        · exact edit_agree h hx
      · exact edit_agree h hx
    · exact ⟨h, rfl⟩
  | assignFrom x y q =>
    simp only [Store.step]
    rw [h x (hv x (by simp [vars])), h y (hv y (by simp [vars]))]
    split
    · split
      · exact ⟨set_agree h, rfl⟩
      · exact ⟨set_agree (set_agree h), rfl⟩
    · exact ⟨h, rfl⟩
  | _ => exact edit_agree h (hv _ (by simp [vars]))

theorem _root_.LP.Sim.holds {s : DState} {st : Store} (h : Sim s st) {x : Nat} {d : Tree} : Holds s x d ↔ st x = some d := by
  constructor
  · rintro ⟨a, ha, hr⟩
    obtain ⟨t, ht, hr'⟩ := h.get ha
    rw [ht, Rep.unique _ _ _ hr hr']
  · intro hx
    cases he : s.env x with
    | none => rw [(h.dom x).1 he] at hx; cases hx
    | some a => exact ⟨a, he, h.rep x a d he hx⟩

/-- The documents of `t` after any interleaving are those of `t` alone with what it received. -/
theorem history_sim {own : Nat → Nat} {t : Nat} : ∀ (as : List (Nat × Stmt)) {s : DState} {st l : Store} {h : List Ev},
    Sim s st → Agree own t l st → (∀ p ∈ as, Allowed own p.1 p.2) → History own t s as h →
    ∃ s' es st', Stmt.runAll (as.map Prod.snd) s = some (s', es) ∧ Sim s' st' ∧ Agree own t (lsteps l h).1 st' ∧
      outcomes t as es = (lsteps l h).2 := by
  intro as
  induction as with
  | nil =>
    intro s st l h hs hg _ hh
    simp only [History] at hh
    subst hh
    exact ⟨s, [], st, rfl, hs, hg, rfl⟩
  | cons p as ih =>
    intro s st l h hs hg hal hh
    obtain ⟨u, c⟩ := p
    obtain ⟨s1, e, hr, hh⟩ := hh
    obtain ⟨s1', hr', hs1⟩ := hs.step c
    have e1 : s1' = s1 ∧ e = [(st.step c).2] := by
      simp only [Stmt.runAll, hr'] at hr
      cases he : (st.step c).2 <;> simp [he] at hr <;> exact ⟨hr.1, hr.2.symm⟩
    obtain ⟨rfl, rfl⟩ := e1
    have cons : ∀ {s' es}, Stmt.runAll (as.map Prod.snd) s1' = some (s', es) →
        Stmt.runAll (((u, c) :: as).map Prod.snd) s = some (s', (st.step c).2 :: es) := by
      intro s' es hx
      simp only [List.map_cons, Stmt.runAll, hr']
      cases he : (st.step c).2 <;> simp [hx]
    have hal' : ∀ p ∈ as, Allowed own p.1 p.2 := fun p hp => hal p (List.mem_cons_of_mem _ hp)
    by_cases hu : u = t
    · subst hu
      rw [if_pos rfl] at hh
      cases h with
      | nil => exact hh.elim
      | cons ev h' =>
        cases ev with
        | does c' =>
          obtain ⟨rfl, hv, hh⟩ := hh
          have ha := step_agree hg hv
          obtain ⟨s', es, st', k1, k2, k3, k4⟩ := ih hs1 ha.1 hal' hh
          refine ⟨s', _, st', cons k1, k2, k3, ?_⟩
          simp only [lsteps, lstep, ← k4, ha.2]
          simp [outcomes]
        | got z d =>
          obtain ⟨⟨y, rfl, hz, hy, hd⟩, hh⟩ := hh
          rw [hs.holds] at hd
          have hst : (st.step (.declCopy z y)) = (st.set z d, none) := by simp [Store.step, hd]
          rw [hst] at hs1
          obtain ⟨s', es, st', k1, k2, k3, k4⟩ := ih hs1 (set_agree hg) hal' hh
          refine ⟨s', _, st', cons k1, k2, k3, ?_⟩
          simp only [lsteps, lstep, ← k4, hst]
          simp [outcomes]
    · rw [if_neg hu] at hh
      have ha : Agree own t l (st.step c).1 := by
        intro v hv
        rw [hg v hv, step_frame]
        rcases hal (u, c) (by simp) with k | ⟨z, y, rfl, k⟩
        · left; intro hm; exact hu ((k v hm).symm.trans hv)
        · right; exact ⟨z, y, rfl, fun e => hu (by rw [← hv, e]; exact k.symm)⟩
      obtain ⟨s', es, st', k1, k2, k3, k4⟩ := ih hs1 ha hal' hh
      refine ⟨s', _, st', cons k1, k2, k3, ?_⟩
      rw [← k4]
      simp [outcomes, hu]

/-- `History` computed on documents. -/
def Docs (own : Nat → Nat) (t : Nat) : Store → List (Nat × Stmt) → List Ev → Prop
  | _, [], h => h = []
  | st, (u, c) :: as, h =>
    if u = t then
      match h with
      | [] => False
      | .does c' :: h' => c' = c ∧ (∀ v ∈ vars c, own v = t) ∧ Docs own t (st.step c).1 as h'
      | .got z d :: h' => (∃ y, c = .declCopy z y ∧ own z = t ∧ own y ≠ t ∧ st y = some d) ∧ Docs own t (st.step c).1 as h'
    else Docs own t (st.step c).1 as h

theorem of_docs {own : Nat → Nat} {t : Nat} : ∀ (as : List (Nat × Stmt)) {s : DState} {st : Store} {h : List Ev}, Sim s st →
    Docs own t st as h → History own t s as h := by
  intro as
  induction as with
  | nil => intro s st h _ hd; exact hd
  | cons p as ih =>
    intro s st h hs hd
    obtain ⟨u, c⟩ := p
    obtain ⟨s1, hr, hs1⟩ := hs.step c
    have hrun : Stmt.runAll [c] s = some (s1, [(st.step c).2]) := by
      simp only [Stmt.runAll, hr]
      cases (st.step c).2 <;> rfl
    refine ⟨s1, _, hrun, ?_⟩
    simp only [Docs] at hd
    by_cases hu : u = t
    · rw [if_pos hu] at hd ⊢
      cases h with
      | nil => exact hd
      | cons ev h' =>
        cases ev with
        | does c' => exact ⟨hd.1, hd.2.1, ih hs1 hd.2.2⟩
        | got z d =>
          obtain ⟨⟨y, e1, e2, e3, e4⟩, hd⟩ := hd
          exact ⟨⟨y, e1, e2, e3, hs.holds.2 e4⟩, ih hs1 hd⟩
    · rw [if_neg hu] at hd ⊢
      exact ih hs1 hd

end LP.Interleave
