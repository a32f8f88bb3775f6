import Verif.Model.Config
/-!
# Comparing configurations (C69)
-/
namespace LP.Config

theorem stdEqual_true {l m : List Str} : stdEqual l m = some true ↔ l <+: m := by
  induction l generalizing m with
  | nil => simp [stdEqual]
  | cons a l ih =>
    cases m with
    | nil => simp [stdEqual]
    | cons b m =>
      simp only [stdEqual, List.cons_prefix_cons]
      by_cases h : a = b
      · simp [h, ih]
      · simp [h]

theorem stdEqual_ub {l m : List Str} : stdEqual l m = none ↔ m <+: l ∧ m ≠ l := by
  induction l generalizing m with
  | nil => simp [stdEqual]
  | cons a l ih =>
    cases m with
    | nil => simp [stdEqual]
    | cons b m =>
      simp only [stdEqual, List.cons_prefix_cons, ne_eq, List.cons.injEq, not_and]
      by_cases h : a = b
      · simp [h, ih]
      · simp [h, Ne.symm h]

/-- When the comparison is true: same bus, and the left list of search paths is a beginning of the right one. -/
theorem C69_equal_iff_prefix (a b : PluginManager) : a.eq b = some true ↔ a.bus = b.bus ∧ a.paths <+: b.paths := by
  unfold PluginManager.eq
  by_cases h : a.bus = b.bus
  · simp [h, stdEqual_true]
  · simp [h]

/-- When it reads past the end of the right list (undefined behaviour): same bus, and the right list is a proper
beginning of the left one. -/
theorem C69_undefined_iff (a b : PluginManager) :
    a.eq b = none ↔ a.bus = b.bus ∧ b.paths <+: a.paths ∧ b.paths ≠ a.paths := by
  unfold PluginManager.eq
  by_cases h : a.bus = b.bus
  · simp [h, stdEqual_ub]
  · simp [h]

/-- Hence comparing unequal configurations in one order may give true while the other order is undefined. -/
theorem C69_not_symmetric (a b : PluginManager) (h : a.eq b = some true) (hne : a ≠ b) : b.eq a = none := by
  obtain ⟨h1, h2⟩ := (C69_equal_iff_prefix a b).1 h
  refine (C69_undefined_iff b a).2 ⟨h1.symm, h2, ?_⟩
  intro e
  apply hne
  cases a; cases b
  simp only at h1 e
  rw [h1, e]

/-- It is reflexive, and true in both orders only for equal configurations. -/
theorem C69_both_orders (a b : PluginManager) : (a.eq b = some true ∧ b.eq a = some true) ↔ a = b := by
  constructor
  · intro ⟨h1, h2⟩
    apply Classical.byContradiction
    intro hne
    rw [C69_not_symmetric a b h1 hne] at h2
    cases h2
  · rintro rfl
    have : a.eq a = some true := (C69_equal_iff_prefix a a).2 ⟨rfl, List.prefix_rfl⟩
    exact ⟨this, this⟩

/-- Two lists of the same length are compared as one expects. -/
theorem C69_same_length (a b : PluginManager) (h : a.paths.length = b.paths.length) : a.eq b = some (decide (a.bus = b.bus ∧ a.paths = b.paths)) := by
  have hp : ∀ x y : List Str, x.length = y.length → (x <+: y ↔ x = y) := fun x y hl =>
    ⟨fun hp => hp.eq_of_length hl, fun e => e ▸ List.prefix_rfl⟩
  cases he : a.eq b with
  | none =>
    obtain ⟨_, h2, h3⟩ := (C69_undefined_iff a b).1 he
    exact absurd ((hp _ _ h.symm).1 h2) h3
  | some v =>
    congr 1
    have := C69_equal_iff_prefix a b
    rw [he, hp _ _ h] at this
    cases v
    · simp at this
      simp; exact this
    · simp at this
      simp [this]

/-- The configuration files are ignored altogether. -/
theorem C69_files_ignored (a b : LampPost) (f g : List Str) : ({ a with files := f } : LampPost).eq { b with files := g } = a.eq b := rfl

example : PluginManager.eq ⟨[bs "x"], 1⟩ ⟨[bs "x", bs "y"], 1⟩ = some true ∧ PluginManager.eq ⟨[bs "x", bs "y"], 1⟩ ⟨[bs "x"], 1⟩ = none ∧
    PluginManager.eq ⟨[bs "x", bs "y"], 1⟩ ⟨[bs "x"], 2⟩ = some false ∧ PluginManager.eq ⟨[bs "z", bs "y"], 1⟩ ⟨[bs "x"], 1⟩ = some false ∧
    LampPost.eq ⟨⟨[], 0⟩, [bs "a.json"]⟩ ⟨⟨[], 0⟩, [bs "b.json"]⟩ = some true := by decide

end LP.Config
