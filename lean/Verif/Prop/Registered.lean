import Verif.Lemma.Registered
import Verif.Prop.BusQueue
/-!
# C135: registration

`ContainsSubscriber` and `ContainsPublisher` over every interleaving of the bus thread with calls of other threads.
-/
namespace LP.Bus

/-- **C135.** Whatever threads and callbacks do, a bus contains exactly the subscribers that were created on it and not deleted
through it. -/
theorem C135_contains_subscriber {name : Str} {σ₀ σ : St} {as : List Act} (h0 : initial name = some σ₀) (he : exec σ₀ as = some σ) (b s : Nat) :
    (containsSubscriber b (some s) σ.w = true ↔ (subsMade as)[s]? = some b ∧ .deleteSub b s ∉ as) ∧
    containsSubscriber b none σ.w = false := by
  refine ⟨?_, rfl⟩
  rw [← (listed h0 he).sub b s]
  simp [containsSubscriber]

/-- **C135.** The same for publishers. -/
theorem C135_contains_publisher {name : Str} {σ₀ σ : St} {as : List Act} (h0 : initial name = some σ₀) (he : exec σ₀ as = some σ) (b p : Nat) :
    (containsPublisher b (some p) σ.w = true ↔ (pubsMade as)[p]? = some b ∧ .deletePub b p ∉ as) ∧
    containsPublisher b none σ.w = false := by
  refine ⟨?_, rfl⟩
  rw [← (listed h0 he).pub b p]
  simp [containsPublisher]

/-- A history with a subscriber deleted through the wrong bus, one deleted through its own, and a deleted publisher. -/
def registry : List Act :=
  setup ++ publication ++ [.start] ++ thread 9 ++ [.createSub 1 (bs "u") none, .deleteSub 0 1, .deleteSub 1 2, .createPub 0 (bs "v"), .deletePub 0 1]

example : ∃ σ₀ σ, initial (bs "r") = some σ₀ ∧ exec σ₀ registry = some σ ∧ subsMade registry = [0, 1, 1] ∧ pubsMade registry = [1, 0] ∧
    containsSubscriber 0 (some 0) σ.w = true ∧ containsSubscriber 1 (some 1) σ.w = true ∧ containsSubscriber 1 (some 2) σ.w = false ∧
    containsSubscriber 0 (some 1) σ.w = false ∧ containsPublisher 1 (some 0) σ.w = true ∧ containsPublisher 0 (some 1) σ.w = false := by
  have h : ((initial (bs "r")).bind (fun σ₀ => (exec σ₀ registry).map (fun σ =>
      (containsSubscriber 0 (some 0) σ.w, containsSubscriber 1 (some 1) σ.w, containsSubscriber 1 (some 2) σ.w,
      containsSubscriber 0 (some 1) σ.w, containsPublisher 1 (some 0) σ.w, containsPublisher 0 (some 1) σ.w)))) =
      some (true, true, false, false, true, false) := by decide +kernel
  obtain ⟨σ₀, h0, h⟩ := Option.bind_eq_some_iff.1 h
  obtain ⟨σ, h1, e⟩ := Option.map_eq_some_iff.1 h
  simp only [Prod.mk.injEq] at e
  exact ⟨σ₀, σ, h0, h1, by decide +kernel, by decide +kernel, e.1, e.2.1, e.2.2.1, e.2.2.2.1, e.2.2.2.2.1, e.2.2.2.2.2⟩

end LP.Bus
