import Verif.Spec.Print
import Verif.Lemma.Query
import Verif.Lemma.Decimal
/-!
# Unique readability of printed documents
-/
namespace LP
open Tree

/-- What can follow an element inside a container, or the end of the text. -/
def Stop (r : Str) : Prop := ∀ c, r.head? = some c → c = 44 ∨ c = 93 ∨ c = 125

/-- Two words over a set of letters, each followed by a letter outside of it or by nothing. -/
theorem span_unique (P : UInt8 → Prop) : ∀ (a b r r' : Str), (∀ c ∈ a, P c) → (∀ c ∈ b, P c) → (∀ c, r.head? = some c → ¬ P c) →
    (∀ c, r'.head? = some c → ¬ P c) → a ++ r = b ++ r' → a = b ∧ r = r' := by
  intro a
  induction a with
  | nil =>
    intro b r r' _ hb hr _ h
    cases b with
    | nil => exact ⟨rfl, h⟩
    | cons c b =>
      simp only [List.nil_append, List.cons_append] at h
      exact absurd (hb c (by simp)) (hr c (by rw [h]; rfl))
  | cons x a ih =>
    intro b r r' ha hb hr hr' h
    cases b with
    | nil =>
      simp only [List.nil_append, List.cons_append] at h
      exact absurd (ha x (by simp)) (hr' x (by rw [← h]; rfl))
    | cons c b =>
      simp only [List.cons_append, List.cons.injEq] at h
      obtain ⟨h1, h2⟩ := ih b r r' (fun c hc => ha c (by simp [hc])) (fun c hc => hb c (by simp [hc])) hr hr' h.2
      exact ⟨by rw [h.1, h1], h2⟩

/-- The letters of an integer. -/
def IntLetter (c : UInt8) : Prop := c = 45 ∨ IsDigit c

instance (c : UInt8) : Decidable (IntLetter c) := by unfold IntLetter; infer_instance

theorem intToStr_letters (i : Int) : ∀ c ∈ intToStr i, IntLetter c := by
  unfold intToStr
  intro c hc
  split at hc
  · rcases List.mem_cons.1 hc with hc | hc
    · exact .inl hc
    · exact .inr ((natToStr_digits _).2 c hc)
  · exact .inr ((natToStr_digits _).2 c hc)

theorem intToStr_head (i : Int) : ∃ c s, intToStr i = c :: s ∧ IntLetter c := by
  cases h : intToStr i with
  | nil =>
    unfold intToStr at h
    split at h
    · cases h
    · exact absurd h ((natToStr_digits _).1)
  | cons c s => exact ⟨c, s, rfl, intToStr_letters i c (by rw [h]; simp)⟩

theorem intToStr_inj {i j : Int} (h : intToStr i = intToStr j) : i = j := by
  have hd : ∀ n s, natToStr n ≠ 45 :: s := by
    intro n s h
    have := (natToStr_digits n).2 45 (by rw [h]; simp)
    revert this; decide
  unfold intToStr at h
  split at h <;> split at h
  · have := natToStr_inj (List.cons.inj h).2; omega
  · exact absurd h.symm (hd _ _)
  · exact absurd h (hd _ _)
  · have := natToStr_inj h; omega

theorem stop_not_letter {r : Str} (h : Stop r) (c : UInt8) (hc : r.head? = some c) : ¬ IntLetter c := by
  rcases h c hc with rfl | rfl | rfl <;> decide

/-- The elements after the first. -/
def restL (pd : Dbl → Str) (po : Nat → Nat → Str) : List Tree → Str
  | [] => []
  | t :: ts => 44 :: 32 :: (text pd po t ++ restL pd po ts)

/-- The entries after the first. -/
def restD (pd : Dbl → Str) (po : Nat → Nat → Str) : List (Str × Tree) → Str
  | [] => []
  | (k, t) :: ds => 44 :: 32 :: (k ++ 58 :: 32 :: (text pd po t ++ restD pd po ds))

variable {pd : Dbl → Str} {po : Nat → Nat → Str}

theorem joinComma_cons (x : Str) (xs : List Str) : joinComma (x :: xs) = x ++ (xs.map (fun y => 44 :: 32 :: y)).flatten := by
  induction xs generalizing x with
  | nil => simp [joinComma]
  | cons y ys ih => rw [joinComma, ih]; simp

theorem joinL (t : Tree) (ts : List Tree) : joinComma (textL pd po (t :: ts)) = text pd po t ++ restL pd po ts := by
  rw [textL, joinComma_cons]
  congr 1
  induction ts with
  | nil => rfl
  | cons u us ih => simp [textL, restL, ih]

theorem joinD (k : Str) (t : Tree) (ds : List (Str × Tree)) :
    joinComma (textD pd po ((k, t) :: ds)) = k ++ 58 :: 32 :: (text pd po t ++ restD pd po ds) := by
  rw [textD, joinComma_cons]
  have : ((textD pd po ds).map (fun y => 44 :: 32 :: y)).flatten = restD pd po ds := by
    induction ds with
    | nil => rfl
    | cons e us ih => obtain ⟨k', u⟩ := e; simp [textD, restD, ih]
  rw [this]; simp

theorem stop_restL (ts : List Tree) (r : Str) : Stop (restL pd po ts ++ 93 :: r) := by
  intro c hc
  cases ts <;> simp [restL] at hc <;> simp [← hc]

theorem stop_restD (ds : List (Str × Tree)) (r : Str) : Stop (restD pd po ds ++ 125 :: r) := by
  intro c hc
  match ds with
  | [] => simp [restD] at hc; simp [← hc]
  | (k, t) :: ds => simp [restD] at hc; simp [← hc]

/-- The first letter tells the kind. -/
def Lead : Tree → UInt8 → Prop
  | .empty, c => c = 110
  | .value (.int _), c => IntLetter c
  | .value _, c => c = 34
  | .list _, c => c = 91
  | .dict _, c => c = 123

theorem lead {t : Tree} (h : Plain t) : ∃ c s, text pd po t = c :: s ∧ Lead t c := by
  match t, h with
  | .empty, _ => exact ⟨_, _, rfl, rfl⟩
  | .value (.int i), _ => exact intToStr_head i.toInt
  | .value (.str s), _ => exact ⟨_, _, rfl, rfl⟩
  | .list ts, _ => exact ⟨_, _, rfl, rfl⟩
  | .dict ds, _ => exact ⟨_, _, rfl, rfl⟩

theorem lead_lt {t u : Tree} {c : UInt8} (hp : Plain t) (hq : Plain u) (h : Lead t c) (h' : Lead u c) : 
    (t = .empty ∧ u = .empty) ∨ (∃ i j, t = .value (.int i) ∧ u = .value (.int j)) ∨
    (∃ a b, t = .value (.str a) ∧ u = .value (.str b)) ∨ (∃ a b, t = .list a ∧ u = .list b) ∨ (∃ a b, t = .dict a ∧ u = .dict b) := by
  have e1 : ¬ IntLetter 110 := by decide
  have e2 : ¬ IntLetter 34 := by decide
  have e3 : ¬ IntLetter 91 := by decide
  have e4 : ¬ IntLetter 123 := by decide
  match t, hp, u, hq with
  | .empty, _, .empty, _ => simp
  | .value (.int i), _, .value (.int j), _ => simp
  | .value (.str i), _, .value (.str j), _ => simp
  | .list i, _, .list j, _ => simp
  | .dict i, _, .dict j, _ => simp
  | .empty, _, .value (.int i), _ => simp only [Lead] at h h'; subst h; contradiction
  | .empty, _, .value (.str i), _ => simp only [Lead] at h h'; subst h; contradiction
  | .empty, _, .list i, _ => simp only [Lead] at h h'; subst h; contradiction
  | .empty, _, .dict i, _ => simp only [Lead] at h h'; subst h; contradiction
  | .value (.int i), _, .empty, _ => simp only [Lead] at h h'; subst h'; contradiction
  | .value (.int i), _, .value (.str j), _ => simp only [Lead] at h h'; subst h'; contradiction
  | .value (.int i), _, .list j, _ => simp only [Lead] at h h'; subst h'; contradiction
  | .value (.int i), _, .dict j, _ => simp only [Lead] at h h'; subst h'; contradiction
  | .value (.str i), _, .empty, _ => simp only [Lead] at h h'; subst h; contradiction
  | .value (.str i), _, .value (.int j), _ => simp only [Lead] at h h'; subst h; contradiction
  | .value (.str i), _, .list j, _ => simp only [Lead] at h h'; subst h; contradiction
  | .value (.str i), _, .dict j, _ => simp only [Lead] at h h'; subst h; contradiction
  | .list i, _, .empty, _ => simp only [Lead] at h h'; subst h; contradiction
  | .list i, _, .value (.int j), _ => simp only [Lead] at h h'; subst h; contradiction
  | .list i, _, .value (.str j), _ => simp only [Lead] at h h'; subst h; contradiction
  | .list i, _, .dict j, _ => simp only [Lead] at h h'; subst h; contradiction
  | .dict i, _, .empty, _ => simp only [Lead] at h h'; subst h; contradiction
  | .dict i, _, .value (.int j), _ => simp only [Lead] at h h'; subst h; contradiction
  | .dict i, _, .value (.str j), _ => simp only [Lead] at h h'; subst h; contradiction
  | .dict i, _, .list j, _ => simp only [Lead] at h h'; subst h; contradiction

theorem lead_not_close {t : Tree} (hp : Plain t) {c : UInt8} (h : Lead t c) : c ≠ 93 := by
  match t, hp with
  | .empty, _ => simp only [Lead] at h; subst h; decide
  | .value (.int i), _ => rintro rfl; revert h; simp only [Lead]; decide
  | .value (.str i), _ => simp only [Lead] at h; subst h; decide
  | .list i, _ => simp only [Lead] at h; subst h; decide
  | .dict i, _ => simp only [Lead] at h; subst h; decide

mutual
theorem text_inj : ∀ (t u : Tree) (r r' : Str), Plain t → Plain u → Stop r → Stop r' →
    text pd po t ++ r = text pd po u ++ r' → t = u ∧ r = r'
  | t, u, r, r', ht, hu, hr, hr', h => by
    obtain ⟨c, s, h1, h2⟩ := lead (pd := pd) (po := po) ht
    obtain ⟨d, s', h3, h4⟩ := lead (pd := pd) (po := po) hu
    have hcd : c = d := by rw [h1, h3] at h; exact (List.cons.inj h).1
    subst hcd
    rcases lead_lt ht hu h2 h4 with ⟨rfl, rfl⟩ | ⟨i, j, rfl, rfl⟩ | ⟨a, b, rfl, rfl⟩ | ⟨a, b, ha, rfl⟩ | ⟨a, b, ha, rfl⟩
    · exact ⟨rfl, List.append_cancel_left h⟩
    · simp only [text] at h
      obtain ⟨e1, e2⟩ := span_unique IntLetter _ _ _ _ (intToStr_letters _) (intToStr_letters _) (stop_not_letter hr)
        (stop_not_letter hr') h
      have := intToStr_inj e1
      exact ⟨by rw [Int32.toInt_inj.1 this], e2⟩
    · simp only [text, List.append_assoc, List.cons_append, List.nil_append, List.cons.injEq, true_and] at h
      simp only [Plain] at ht hu
      obtain ⟨e1, e2⟩ := span_unique (· ≠ 34) _ _ _ _ (fun c hc e => ht (e ▸ hc)) (fun c hc e => hu (e ▸ hc))
        (by simp) (by simp) h
      exact ⟨by rw [e1], (List.cons.inj e2).2⟩
    · match t, ha with
      | .list a, rfl =>
      simp only [text, List.append_assoc, List.cons_append, List.nil_append, List.cons.injEq, true_and] at h
      simp only [Plain] at ht hu
      match a, b with
      | [], [] => simp [textL, joinComma] at h; exact ⟨rfl, h⟩
      | [], u :: us =>
        rw [joinL] at h
        obtain ⟨c, s, h1, h2⟩ := lead (pd := pd) (po := po) hu.1
        simp only [textL, joinComma, List.nil_append, h1, List.cons_append, List.cons.injEq] at h
        exact absurd h.1.symm (lead_not_close hu.1 h2)
      | t :: ts, [] =>
        rw [joinL] at h
        obtain ⟨c, s, h1, h2⟩ := lead (pd := pd) (po := po) ht.1
        simp only [textL, joinComma, List.nil_append, h1, List.cons_append, List.cons.injEq] at h
        exact absurd h.1 (lead_not_close ht.1 h2)
      | t :: ts, u :: us =>
        rw [joinL, joinL, List.append_assoc, List.append_assoc] at h
        obtain ⟨e1, e2⟩ := text_inj t u _ _ ht.1 hu.1 (stop_restL _ _) (stop_restL _ _) h
        obtain ⟨e3, e4⟩ := restL_inj ts us _ _ ht.2 hu.2 e2
        exact ⟨by rw [e1, e3], e4⟩
    · match t, ha with
      | .dict a, rfl =>
      simp only [text, List.append_assoc, List.cons_append, List.nil_append, List.cons.injEq, true_and] at h
      simp only [Plain] at ht hu
      match a, b with
      | [], [] => simp [textD, joinComma] at h; exact ⟨rfl, h⟩
      | [], (k, u) :: us =>
        rw [joinD] at h
        simp only [textD, joinComma, List.nil_append] at h
        cases k with
        | nil => simp at h
        | cons c k => simp only [List.cons_append, List.cons.injEq] at h; exact absurd (by simp [← h.1]) hu.2.1
      | (k, t) :: ts, [] =>
        rw [joinD] at h
        simp only [textD, joinComma, List.nil_append] at h
        cases k with
        | nil => simp at h
        | cons c k => simp only [List.cons_append, List.cons.injEq] at h; exact absurd (by simp [h.1]) ht.2.1
      | (k, t) :: ts, (j, u) :: us =>
        rw [joinD, joinD] at h
        simp only [List.append_assoc, List.cons_append] at h
        obtain ⟨e0, e1⟩ := span_unique (· ≠ 58) k j _ _ (fun c hc e => ht.1 (e ▸ hc)) (fun c hc e => hu.1 (e ▸ hc))
          (by simp) (by simp) h
        simp only [List.cons.injEq, true_and] at e1
        obtain ⟨e1, e2⟩ := text_inj t u _ _ ht.2.2.1 hu.2.2.1 (stop_restD _ _) (stop_restD _ _) e1
        obtain ⟨e3, e4⟩ := restD_inj ts us _ _ ht.2.2.2 hu.2.2.2 e2
        exact ⟨by rw [e0, e1, e3], e4⟩
theorem restL_inj : ∀ (ts us : List Tree) (r r' : Str), PlainL ts → PlainL us →
    restL pd po ts ++ 93 :: r = restL pd po us ++ 93 :: r' → ts = us ∧ r = r'
  | [], [], r, r', _, _, h => by simpa [restL] using h
  | [], u :: us, r, r', _, _, h => by simp [restL] at h
  | t :: ts, [], r, r', _, _, h => by simp [restL] at h
  | t :: ts, u :: us, r, r', ht, hu, h => by
    simp only [restL, List.cons_append, List.append_assoc, List.cons.injEq, true_and] at h
    obtain ⟨e1, e2⟩ := text_inj t u _ _ ht.1 hu.1 (stop_restL _ _) (stop_restL _ _) h
    obtain ⟨e3, e4⟩ := restL_inj ts us _ _ ht.2 hu.2 e2
    exact ⟨by rw [e1, e3], e4⟩
theorem restD_inj : ∀ (ts us : List (Str × Tree)) (r r' : Str), PlainD ts → PlainD us →
    restD pd po ts ++ 125 :: r = restD pd po us ++ 125 :: r' → ts = us ∧ r = r'
  | [], [], r, r', _, _, h => by simpa [restD] using h
  | [], (k, u) :: us, r, r', _, _, h => by simp [restD] at h
  | (k, t) :: ts, [], r, r', _, _, h => by simp [restD] at h
  | (k, t) :: ts, (j, u) :: us, r, r', ht, hu, h => by
    simp only [restD, List.cons_append, List.append_assoc, List.cons.injEq, true_and] at h
    obtain ⟨e0, e1⟩ := span_unique (· ≠ 58) k j _ _ (fun c hc e => ht.1 (e ▸ hc)) (fun c hc e => hu.1 (e ▸ hc))
      (by simp) (by simp) h
    simp only [List.cons.injEq, true_and] at e1
    obtain ⟨e1, e2⟩ := text_inj t u _ _ ht.2.2.1 hu.2.2.1 (stop_restD _ _) (stop_restD _ _) e1
    obtain ⟨e3, e4⟩ := restD_inj ts us _ _ ht.2.2.2 hu.2.2.2 e2
    exact ⟨by rw [e0, e1, e3], e4⟩
end

end LP
