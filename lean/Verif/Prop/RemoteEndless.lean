import Verif.Lemma.RemotePlay
/-!
# C133: requests to another host are answered
-/
namespace LP.Remote
open LP.Action (Cons Prov Ev envelope answers Distinct)

variable {ends : Bool → End}

/-- A consumer on one host requests with a new id, a provider of the topic on the other has a callback. On an execution without end in
which no thread and no message is put off for ever, the links stay in operation, and nobody interferes, the request is shown to the
provider, with its content as serialisation leaves it. It need not answer anything for this. -/
theorem C133_shown (ρ : Endless ends) (n : Nat) (s : Bool) (c p T : Nat) (id : Str) (k : Nat) (t : Tree) (f : Tree → Tree) (x : Cons) (y : Prov)
    (h : ∀ r, Action.Reachable ((ρ.st 0).host r)) (ha : ρ.act n = .act s (.request c id k t))
    (hx : ((ρ.st n).host s).cons[c]? = some x) (hy : ((ρ.st n).host (!s)).provs[p]? = some y) (ht : x.topic = y.topic) (hcb : y.cb ≠ none)
    (hfresh : Fresh (ρ.st n) id) (hon : ∀ r, ((ρ.st n).host r).bus.phase ≠ .off) (hend : ∀ r, (ends r).sub < ((ρ.st n).host r).bus.w.ns)
    (hf : ρ.Fair) (hp : ρ.Prompt) (hT : ρ.NoNewBuses T) (hs : ρ.Served n s x y p id f) :
    ∃ m k', Ev.requested p k' id (envelope (bs "request") id t.wire) ∈ ((ρ.st m).host (!s)).evs := by
  obtain ⟨x', W, -⟩ := Endless.way_request h ha hx hy ht hcb hfresh hon hend hs
  obtain ⟨m, k', hk⟩ := W.shown (hf.tail (n + 1)) (hp.tail (n + 1)) (hT.tail (n + 1))
  exact ⟨n + 1 + m, k', hk⟩

/-- Moreover the provider answers what it is shown, at some time or other, with `f` of what it was shown. Then from some moment on the
consumer's callback has been called for this request, exactly once, with the serialised form of that. -/
theorem C133_answered (ρ : Endless ends) (n : Nat) (s : Bool) (c p T : Nat) (id : Str) (k : Nat) (t : Tree) (f : Tree → Tree) (x : Cons) (y : Prov)
    (h : ∀ r, Action.Reachable ((ρ.st 0).host r)) (ha : ρ.act n = .act s (.request c id k t))
    (hx : ((ρ.st n).host s).cons[c]? = some x) (hy : ((ρ.st n).host (!s)).provs[p]? = some y) (ht : x.topic = y.topic) (hcb : y.cb ≠ none)
    (hfresh : Fresh (ρ.st n) id) (hon : ∀ r, ((ρ.st n).host r).bus.phase ≠ .off) (hend : ∀ r, (ends r).sub < ((ρ.st n).host r).bus.w.ns)
    (hf : ρ.Fair) (hp : ρ.Prompt) (hT : ρ.NoNewBuses T) (hs : ρ.Served n s x y p id f) (hans : ρ.Answers n (!s) p id f)
    (hd : ∀ m, Distinct ((ρ.st m).host s)) :
    ∃ m, ∀ m', m ≤ m' → answers c id ((ρ.st m').host s).evs =
      [.answered c id (.user k) (f (envelope (bs "request") id t.wire)).wire] := by
  obtain ⟨x', W, ha, hth⟩ := Endless.way_request h ha hx hy ht hcb hfresh hon hend hs
  obtain ⟨m, hm⟩ := W.answered (hf.tail (n + 1)) (hp.tail (n + 1)) (hT.tail (n + 1)) (fun j => hd _) ha rfl rfl rfl hth hans.tail
  refine ⟨n + 1 + m, fun m' hm' => ?_⟩
  have := hm (m' - (n + 1)) (by omega)
  simp only [Endless.tail] at this
  rwa [show n + 1 + (m' - (n + 1)) = m' by omega] at this

/-- A blocking request to another host, made by a thread other than the bus thread, returns the provider's answer. (There is no
undefined behaviour on `ρ`: had the call timed out first, the answer would have led to it, see C52.) -/
theorem C133_blocking (ρ : Endless ends) (n : Nat) (s : Bool) (c p T : Nat) (id : Str) (t : Tree) (f : Tree → Tree) (x : Cons) (y : Prov)
    (h : ∀ r, Action.Reachable ((ρ.st 0).host r)) (ha : ρ.act n = .act s (.begin c id t false))
    (hx : ((ρ.st n).host s).cons[c]? = some x) (hy : ((ρ.st n).host (!s)).provs[p]? = some y) (ht : x.topic = y.topic) (hcb : y.cb ≠ none)
    (hfresh : Fresh (ρ.st n) id) (hon : ∀ r, ((ρ.st n).host r).bus.phase ≠ .off) (hend : ∀ r, (ends r).sub < ((ρ.st n).host r).bus.w.ns)
    (hf : ρ.Fair) (hp : ρ.Prompt) (hT : ρ.NoNewBuses T) (hs : ρ.Served n s x y p id f) (hans : ρ.Answers n (!s) p id f)
    (hd : ∀ m, Distinct ((ρ.st m).host s)) (hw : ρ.Awake s ((ρ.st n).host s).frames.length) :
    ∃ m, ∀ m', m ≤ m' → ∃ g, ((ρ.st m').host s).frames[((ρ.st n).host s).frames.length]? = some g ∧ g.cons = c ∧ g.id = id ∧
      g.pc = .done ∧ g.result = some (f (envelope (bs "request") id t.wire)).wire := by
  obtain ⟨x', W, ha, hth, g, hg, g1, g2⟩ := Endless.way_begin h ha hx hy ht hcb hfresh hon hend hs
  obtain ⟨m, hm⟩ := W.answered (hf.tail (n + 1)) (hp.tail (n + 1)) (hT.tail (n + 1)) (fun j => hd _) ha rfl rfl rfl hth hans.tail
  obtain ⟨m, hm⟩ := Action.Endless.returned (ρ := (ρ.tail (n + 1)).host s) (W.reach s) ((hf.tail (n + 1)).host s) (fun j => hd _) hg g1 g2
    (hw.tail (n + 1)).host hm
  refine ⟨n + 1 + m, fun m' hm' => ?_⟩
  obtain ⟨g, e1, e2, e3, e4, e5⟩ := hm (m' - (n + 1)) (by omega)
  simp only [Endless.host, Endless.tail] at e1
  rw [show n + 1 + (m' - (n + 1)) = m' by omega] at e1
  exact ⟨g, e1, e2, e3, e4, e5⟩

/-- An asynchronous request with content 7 from the one host to the other, together with other traffic; then both bus threads take turns
looking at empty queues, for ever. -/
example : ∃ ρ : Endless eastWest, ∃ x y T, (∀ r, Action.Reachable ((ρ.st 0).host r)) ∧
    ρ.act 0 = .act false (.request 0 (bs "1") 5 (.value (.int 7))) ∧ ((ρ.st 0).host false).cons[0]? = some x ∧
    ((ρ.st 0).host true).provs[0]? = some y ∧ x.topic = y.topic ∧ y.cb ≠ none ∧ Fresh (ρ.st 0) (bs "1") ∧
    (∀ r, ((ρ.st 0).host r).bus.phase ≠ .off) ∧ (∀ r, (eastWest r).sub < ((ρ.st 0).host r).bus.w.ns) ∧ ρ.Fair ∧ ρ.Prompt ∧
    ρ.NoNewBuses T ∧ ρ.Served 0 false x y 0 (bs "1") Action.echoed ∧ ρ.Answers 0 true 0 (bs "1") Action.echoed ∧
    (∀ m, Distinct ((ρ.st m).host false)) := by
  obtain ⟨ρ, x, y, T, h⟩ := sample (.act false (.request 0 (bs "1") 5 (.value (.int 7)))) course (by decide +kernel)
  obtain ⟨h1, h2, h3, h4, h5, h6, h7, h8, h9, h10, h11, h12, h13, h14, h15, -⟩ := h
  exact ⟨ρ, x, y, T, h1, h2, h3, h4, h5, h6, h7, h8, h9, h10, h11, h12, h13, h14, h15⟩

/-- A blocking request: the caller falls asleep, the request crosses, the provider answers, the lambda runs, the caller returns. -/
def blockingCourse : List Act :=
  [.act false (.send 0), .act false (.wait 0), .act false (.wait 0)] ++ settle false 17 ++ [.receive true 0] ++ settle true 18 ++
    [.act true (.respond 0 (bs "1") (.value (.int 7)))] ++ settle true 17 ++ [.receive false 0] ++ settle false 7 ++
    List.replicate 4 (.act false .lambda) ++ List.replicate 11 (.act false (.run .go)) ++ [.act false (.wait 0)]

example : ∃ ρ : Endless eastWest, ∃ x y T, (∀ r, Action.Reachable ((ρ.st 0).host r)) ∧
    ρ.act 0 = .act false (.begin 0 (bs "1") (.value (.int 7)) false) ∧ ((ρ.st 0).host false).cons[0]? = some x ∧
    ((ρ.st 0).host true).provs[0]? = some y ∧ x.topic = y.topic ∧ y.cb ≠ none ∧ Fresh (ρ.st 0) (bs "1") ∧
    (∀ r, ((ρ.st 0).host r).bus.phase ≠ .off) ∧ (∀ r, (eastWest r).sub < ((ρ.st 0).host r).bus.w.ns) ∧ ρ.Fair ∧ ρ.Prompt ∧
    ρ.NoNewBuses T ∧ ρ.Served 0 false x y 0 (bs "1") Action.echoed ∧ ρ.Answers 0 true 0 (bs "1") Action.echoed ∧
    (∀ m, Distinct ((ρ.st m).host false)) ∧
    ρ.Awake false ((ρ.st 0).host false).frames.length := by
  obtain ⟨ρ, x, y, T, h⟩ := sample (.act false (.begin 0 (bs "1") (.value (.int 7)) false)) blockingCourse (by decide +kernel)
  obtain ⟨h1, h2, h3, h4, h5, h6, h7, h8, h9, h10, h11, h12, h13, h14, h15, h16, h17⟩ := h
  exact ⟨ρ, x, y, T, h1, h2, h3, h4, h5, h6, h7, h8, h9, h10, h11, h12, h13, h14, h15, by rw [h16]; exact h17⟩

end LP.Remote
