import Verif.Lemma.AnsweredPlay
/-!
# C130: requests are answered
-/
namespace LP.Action
open LP.Bus (Delivery BMsg)

/-- A consumer requests with a new id, a provider of the topic has a callback. On an execution without end in which the bus thread
and the publishing threads are not forgotten, no more child buses are created after some time, nobody interferes, and both stay
registered on running buses, the request is shown to the provider, as it was sent. It need not answer anything for this. -/
theorem C130_shown (ρ : Endless) (n c p T : Nat) (id : Str) (k : Nat) (t : Tree) (f : Tree → Tree) (x : Cons) (y : Prov)
    (h : Reachable (ρ.st 0)) (ha : ρ.act n = .request c id k t) (hx : (ρ.st n).cons[c]? = some x) (hy : (ρ.st n).provs[p]? = some y)
    (ht : x.topic = y.topic) (hcb : y.cb ≠ none) (hfresh : Fresh (ρ.st n) id) (hon : (ρ.st n).bus.phase ≠ .off) (hf : ρ.Fair)
    (hp : ρ.Prompt) (hT : ρ.NoNewBuses T) (hs : ρ.Served n x y p id f) :
    ∃ m k', Ev.requested p k' id (envelope (bs "request") id t) ∈ (ρ.st m).evs := by
  obtain ⟨x', W, -⟩ := Endless.way_request h ha hx hy ht hcb hfresh hon hs
  obtain ⟨m, k', hk⟩ := W.shown (hf.tail (n + 1)) (hp.tail (n + 1)) (hT.tail (n + 1))
  exact ⟨n + 1 + m, k', hk⟩

/-- Moreover the provider answers what it is shown, at some time or other, with `f` of what it was shown. Then from some moment
on the consumer's callback has been called for this request, exactly once, with `f` of the envelope of the request. -/
theorem C130_answered (ρ : Endless) (n c p T : Nat) (id : Str) (k : Nat) (t : Tree) (f : Tree → Tree) (x : Cons) (y : Prov)
    (h : Reachable (ρ.st 0)) (ha : ρ.act n = .request c id k t) (hx : (ρ.st n).cons[c]? = some x) (hy : (ρ.st n).provs[p]? = some y)
    (ht : x.topic = y.topic) (hcb : y.cb ≠ none) (hfresh : Fresh (ρ.st n) id) (hon : (ρ.st n).bus.phase ≠ .off) (hf : ρ.Fair)
    (hp : ρ.Prompt) (hT : ρ.NoNewBuses T) (hs : ρ.Served n x y p id f) (hans : ρ.Answers n p id f) (hd : ∀ m, Distinct (ρ.st m)) :
    ∃ m, ∀ m', m ≤ m' → answers c id (ρ.st m').evs = [.answered c id (.user k) (f (envelope (bs "request") id t))] := by
  obtain ⟨x', W, ha, hth⟩ := Endless.way_request h ha hx hy ht hcb hfresh hon hs
  obtain ⟨m, hm⟩ := W.answered (hf.tail (n + 1)) (hp.tail (n + 1)) (hT.tail (n + 1)) (fun j => hd _) ha rfl rfl rfl hth hans.tail
  refine ⟨n + 1 + m, fun m' hm' => ?_⟩
  have := hm (m' - (n + 1)) (by omega)
  simp only [Endless.tail] at this
  rwa [show n + 1 + (m' - (n + 1)) = m' by omega] at this

/-- A blocking request, made by a thread other than the bus thread, returns the provider's answer. (There is no undefined
behaviour on `ρ`: had the call timed out first, the answer would have led to it, see C52.) -/
theorem C130_blocking (ρ : Endless) (n c p T : Nat) (id : Str) (t : Tree) (f : Tree → Tree) (x : Cons) (y : Prov)
    (h : Reachable (ρ.st 0)) (ha : ρ.act n = .begin c id t false) (hx : (ρ.st n).cons[c]? = some x) (hy : (ρ.st n).provs[p]? = some y)
    (ht : x.topic = y.topic) (hcb : y.cb ≠ none) (hfresh : Fresh (ρ.st n) id) (hon : (ρ.st n).bus.phase ≠ .off) (hf : ρ.Fair)
    (hp : ρ.Prompt) (hT : ρ.NoNewBuses T) (hs : ρ.Served n x y p id f) (hans : ρ.Answers n p id f) (hd : ∀ m, Distinct (ρ.st m))
    (hw : ρ.Awake (ρ.st n).frames.length) :
    ∃ m, ∀ m', m ≤ m' → ∃ g, (ρ.st m').frames[(ρ.st n).frames.length]? = some g ∧ g.cons = c ∧ g.id = id ∧ g.pc = .done ∧
      g.result = some (f (envelope (bs "request") id t)) := by
  obtain ⟨x', W, ha, hth, g, hg, g1, g2⟩ := Endless.way_begin h ha hx hy ht hcb hfresh hon hs
  obtain ⟨m, hm⟩ := W.returned (hf.tail (n + 1)) (hp.tail (n + 1)) (hT.tail (n + 1)) (fun j => hd _) ha rfl rfl rfl hth hg g1 g2
    (hw.tail (n + 1)) hans.tail
  refine ⟨n + 1 + m, fun m' hm' => ?_⟩
  obtain ⟨g, e1, e2, e3, e4, e5⟩ := hm (m' - (n + 1)) (by omega)
  simp only [Endless.tail] at e1
  rw [show n + 1 + (m' - (n + 1)) = m' by omega] at e1
  exact ⟨g, e1, e2, e3, e4, e5⟩

/-- An asynchronous request with content 7, other traffic, an answer, and then the bus thread alone, for ever. -/
example : ∃ ρ : Endless, ∃ x y T, Reachable (ρ.st 0) ∧ ρ.act 0 = .request 0 (bs "1") 5 (.value (.int 7)) ∧ (ρ.st 0).cons[0]? = some x ∧
    (ρ.st 0).provs[0]? = some y ∧ x.topic = y.topic ∧ y.cb ≠ none ∧ Fresh (ρ.st 0) (bs "1") ∧ (ρ.st 0).bus.phase ≠ .off ∧ ρ.Fair ∧
    ρ.Prompt ∧ ρ.NoNewBuses T ∧ ρ.Served 0 x y 0 (bs "1") echoed ∧ ρ.Answers 0 0 (bs "1") echoed ∧ ∀ m, Distinct (ρ.st m) := by
  obtain ⟨ρ, x, y, T, h⟩ := sample (.request 0 (bs "1") 5 (.value (.int 7))) course (by decide +kernel)
  obtain ⟨h1, h2, h3, h4, h5, h6, h7, h8, h9, h10, h11, h12, h13, h14, -⟩ := h
  exact ⟨ρ, x, y, T, h1, h2, h3, h4, h5, h6, h7, h8, h9, h10, h11, h12, h13, h14⟩

/-- A blocking request: the caller falls asleep, the provider answers, the lambda runs, the caller returns. -/
def blockingCourse : List Act :=
  [.send 0, .bus (.push 0), .wait 0, .wait 0] ++ thread 8 ++ [.respond 0 (bs "1") (.value (.int 7)), .bus (.push 0)] ++ thread 13 ++
    List.replicate 4 .lambda ++ [.wait 0] ++ thread 10

example : ∃ ρ : Endless, ∃ x y T, Reachable (ρ.st 0) ∧ ρ.act 0 = .begin 0 (bs "1") (.value (.int 7)) false ∧ (ρ.st 0).cons[0]? = some x ∧
    (ρ.st 0).provs[0]? = some y ∧ x.topic = y.topic ∧ y.cb ≠ none ∧ Fresh (ρ.st 0) (bs "1") ∧ (ρ.st 0).bus.phase ≠ .off ∧ ρ.Fair ∧
    ρ.Prompt ∧ ρ.NoNewBuses T ∧ ρ.Served 0 x y 0 (bs "1") echoed ∧ ρ.Answers 0 0 (bs "1") echoed ∧ (∀ m, Distinct (ρ.st m)) ∧
    ρ.Awake (ρ.st 0).frames.length := by
  obtain ⟨ρ, x, y, T, h⟩ := sample (.begin 0 (bs "1") (.value (.int 7)) false) blockingCourse (by decide +kernel)
  obtain ⟨h1, h2, h3, h4, h5, h6, h7, h8, h9, h10, h11, h12, h13, h14, h15, h16⟩ := h
  exact ⟨ρ, x, y, T, h1, h2, h3, h4, h5, h6, h7, h8, h9, h10, h11, h12, h13, h14, by rw [h15]; exact h16⟩

end LP.Action
