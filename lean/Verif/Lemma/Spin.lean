import Verif.Lemma.Endless
/-!
# A callback that gives its own bus a child with a copy of itself

Everything happens inside one distribution: the callback of the subscriber on bus `b` creates a child of `b` and a subscriber on
it with the same callback, and returns; the distribution goes on to the new child, and calls it there.
-/
namespace LP.Bus.Spin

/-- The message the callback is called with. -/
def first : BMsg := ⟨bs "r", bs "t", .empty⟩
/-- The message behind it. -/
def second : BMsg := ⟨bs "r", bs "u", .empty⟩

/-- What stays as it is: subscriber 0 waits for the second message. -/
structure Base (σ : St) : Prop where
  ns : 0 < σ.w.ns
  sub : σ.w.sub 0 = ⟨bs "u", some 0, 0⟩
  reg : 0 ∈ (σ.w.bus 0).subs
  run : (σ.w.bus 0).running = true
  pub : σ.published = [first, second]
  fates : σ.fates = [.distributed]
  log : received 0 σ.log = []

/-- The activations below. -/
def Above (b : Nat) (K : List Frame) : Prop := ∀ f ∈ K, ∃ b', b' < b ∧ f = .kids b' []

/-- The new bus. -/
def child (l : List Nat) : BusSt := ⟨bs "x", [], l, [], true, true⟩

/-- The callback on bus `b` was called. -/
structure P0 (b : Nat) (K : List Frame) (σ : St) : Prop extends Base σ where
  above : Above b K
  nb : σ.w.nb = b + 1
  kids : (σ.w.bus b).children = []
  attached : (σ.w.bus b).attached = true
  phase : σ.phase = .visit first (.subs b [] :: K) true [second]

/-- It has created the child. -/
structure P1 (b : Nat) (K : List Frame) (σ : St) : Prop extends Base σ where
  above : Above b K
  nb : σ.w.nb = b + 2
  kids : (σ.w.bus b).children = [(bs "x", b + 1)]
  new : σ.w.bus (b + 1) = child []
  phase : σ.phase = .visit first (.subs b [] :: K) true [second]

/-- It has created the subscriber `s`; the distribution has the call stack `st`. -/
structure P2 (b s : Nat) (K : List Frame) (st : List Frame) (cb : Bool) (σ : St) : Prop extends Base σ where
  above : Above b K
  nb : σ.w.nb = b + 2
  kids : (σ.w.bus b).children = [(bs "x", b + 1)]
  new : σ.w.bus (b + 1) = child [s]
  pos : 0 < s
  call : σ.w.sub s = ⟨bs "t", some 1, b + 1⟩
  phase : σ.phase = .visit first st cb [second]

/-- The positions of the circle. -/
inductive At : Nat → St → Prop
  | p0 {b K σ} : P0 b K σ → At 0 σ
  | p1 {b K σ} : P1 b K σ → At 1 σ
  | p2 {b s K σ} : P2 b s K (.subs b [] :: K) true σ → At 2 σ
  | p3 {b s K σ} : P2 b s K (.subs b [] :: K) false σ → At 3 σ
  | p4 {b s K σ} : P2 b s K (.gap b :: K) false σ → At 4 σ
  | p5 {b s K σ} : P2 b s K (.kids b [b + 1] :: K) false σ → At 5 σ
  | p6 {b s K σ} : P2 b s K (.want (b + 1) :: .kids b [] :: K) false σ → At 6 σ
  | p7 {b s K σ} : P2 b s K (.subs (b + 1) [s] :: .kids b [] :: K) false σ → At 7 σ

/-- What happens next. -/
def next (σ : St) : Act :=
  match σ.phase with
  | .visit _ (.subs b [] :: _) true _ =>
    if (σ.w.bus b).children = [] then .createChild b (bs "x")
    else if (σ.w.bus (b + 1)).subs = [] then .createSub (b + 1) (bs "t") (some 1)
    else .run .go
  | _ => .run .go

theorem above_kids {b c : Nat} {K : List Frame} (h : Above b K) (hc : b ≤ c) (m : BMsg) (x : List Nat) (cb : Bool)
    (bt : List BMsg) : holdsKids c (.visit m (.subs b x :: K) cb bt) = false := by
  cases he : holdsKids c (.visit m (.subs b x :: K) cb bt) with
  | false => rfl
  | true =>
    obtain ⟨rest, hr⟩ := holdsKids_iff.1 he
    simp only [Phase.stack, List.mem_cons, reduceCtorEq, false_or] at hr
    obtain ⟨b', h1, h2⟩ := h _ hr
    cases h2; omega

theorem above_subs {b c : Nat} {K : List Frame} (h : Above b K) (hc : b < c) (m : BMsg) (x : List Nat) (cb : Bool)
    (bt : List BMsg) : holdsSubs c (.visit m (.subs b x :: K) cb bt) = false := by
  cases he : holdsSubs c (.visit m (.subs b x :: K) cb bt) with
  | false => rfl
  | true =>
    obtain ⟨rest, hr⟩ := holdsSubs_iff.1 he
    simp only [Phase.stack, List.mem_cons, Frame.subs.injEq] at hr
    rcases hr with hr | hr
    · omega
    · obtain ⟨b', _, h2⟩ := h _ hr; cases h2

theorem step0 {b K σ} (h : P0 b K σ) : ∃ σ', step σ (next σ) = some σ' ∧ At 1 σ' := by
  have hn : next σ = .createChild b (bs "x") := by simp [next, h.phase, h.kids]
  rw [hn]
  simp only [step]
  rw [if_pos ⟨by rw [h.nb]; omega, by rw [h.phase]; exact above_kids h.above (Nat.le_refl _) _ _ _ _⟩]
  refine ⟨_, rfl, .p1 (b := b) (K := K) ?_⟩
  have hx : bs "x" ≠ [] := by decide
  have hc : createChildBus b (bs "x") σ.w = .ok σ.w.nb ((({ σ.w with nb := σ.w.nb + 1 } : World).setBus σ.w.nb (child [])).setBus b
      { σ.w.bus b with children := (σ.w.bus b).children.insert (bs "x") σ.w.nb }) := by
    simp [createChildBus, hx, h.kids, h.attached, child]
  rw [hc]
  have hb : b ≠ b + 1 := by omega
  refine ⟨⟨h.ns, h.sub, ?_, ?_, h.pub, h.fates, h.log⟩, h.above, ?_, ?_, ?_, h.phase⟩
  · simp only [outcome, World.setBus]
    split
    · subst_vars; exact h.reg
    · rw [h.nb]; simp; exact h.reg
  · simp only [outcome, World.setBus]
    split
    · subst_vars; exact h.run
    · rw [h.nb]; simp; exact h.run
  · simp only [outcome, World.setBus]; rw [h.nb]
  · simp [outcome, World.setBus, h.kids, h.nb, Dict.insert]
  · simp [outcome, World.setBus, h.nb, child]

theorem step1 {b K σ} (h : P1 b K σ) : ∃ σ', step σ (next σ) = some σ' ∧ At 2 σ' := by
  have hn : next σ = .createSub (b + 1) (bs "t") (some 1) := by simp [next, h.phase, h.kids, h.new, child]
  rw [hn]
  simp only [step]
  rw [if_pos ⟨by rw [h.nb]; omega, by rw [h.phase]; exact above_subs h.above (by omega) _ _ _ _⟩]
  refine ⟨_, rfl, .p2 (b := b) (K := K) (s := σ.w.ns) ?_⟩
  have h0 := h.ns
  have hne : (0 : Nat) ≠ σ.w.ns := by omega
  refine ⟨⟨?_, ?_, ?_, ?_, h.pub, h.fates, h.log⟩, h.above, ?_, ?_, ?_, h.ns, ?_, h.phase⟩
  · simp [outcome, createSubscriber, World.setBus, World.setSub]
  · simp [outcome, createSubscriber, World.setBus, World.setSub, hne, h.sub]
  · simp [outcome, createSubscriber, World.setBus, World.setSub, h.reg]
  · simp [outcome, createSubscriber, World.setBus, World.setSub, h.run]
  · simp [outcome, createSubscriber, World.setBus, World.setSub, h.nb]
  · simp [outcome, createSubscriber, World.setBus, World.setSub, h.kids]
  · simp [outcome, createSubscriber, World.setBus, World.setSub, h.new, child]
  · simp [outcome, createSubscriber, World.setBus, World.setSub]

theorem to2 {b s K st st' cb cb' σ} (h : P2 b s K st cb σ) :
    P2 b s K st' cb' { σ with phase := .visit first st' cb' [second] } :=
  ⟨⟨h.ns, h.sub, h.reg, h.run, h.pub, h.fates, h.log⟩, h.above, h.nb, h.kids, h.new, h.pos, h.call, rfl⟩

theorem step2 {b s K σ} (h : P2 b s K (.subs b [] :: K) true σ) : ∃ σ', step σ (next σ) = some σ' ∧ At 3 σ' := by
  have hn : next σ = .run .go := by simp [next, h.phase, h.kids, h.new, child]
  rw [hn]
  exact ⟨_, by simp [step, rstep, h.phase], .p3 (to2 h)⟩

theorem step3 {b s K σ} (h : P2 b s K (.subs b [] :: K) false σ) : ∃ σ', step σ (next σ) = some σ' ∧ At 4 σ' := by
  have hn : next σ = .run .go := by simp [next, h.phase]
  rw [hn]
  exact ⟨_, by simp [step, rstep, h.phase, dstep], .p4 (to2 h)⟩

theorem step4 {b s K σ} (h : P2 b s K (.gap b :: K) false σ) : ∃ σ', step σ (next σ) = some σ' ∧ At 5 σ' := by
  have hn : next σ = .run .go := by simp [next, h.phase]
  rw [hn]
  exact ⟨_, by simp [step, rstep, h.phase, dstep, h.kids, Dict.vals], .p5 (to2 h)⟩

theorem step5 {b s K σ} (h : P2 b s K (.kids b [b + 1] :: K) false σ) : ∃ σ', step σ (next σ) = some σ' ∧ At 6 σ' := by
  have hn : next σ = .run .go := by simp [next, h.phase]
  rw [hn]
  exact ⟨_, by simp [step, rstep, h.phase, dstep, h.new, child], .p6 (to2 h)⟩

theorem step6 {b s K σ} (h : P2 b s K (.want (b + 1) :: .kids b [] :: K) false σ) :
    ∃ σ', step σ (next σ) = some σ' ∧ At 7 σ' := by
  have hn : next σ = .run .go := by simp [next, h.phase]
  rw [hn]
  exact ⟨_, by simp [step, rstep, h.phase, dstep, h.new, child], .p7 (to2 h)⟩

theorem step7 {b s K σ} (h : P2 b s K (.subs (b + 1) [s] :: .kids b [] :: K) false σ) :
    ∃ σ', step σ (next σ) = some σ' ∧ At 0 σ' := by
  have hn : next σ = .run .go := by simp [next, h.phase]
  rw [hn]
  have ho : offer σ.w first s = some ⟨s, 1⟩ := by
    simp [offer, h.call, antMatches, first]
  refine ⟨_, by simp [step, rstep, h.phase, dstep, ho]; rfl, .p0 (b := b + 1) (K := .kids b [] :: K) ?_⟩
  have hp := h.pos
  refine ⟨⟨h.ns, h.sub, h.reg, h.run, h.pub, h.fates, ?_⟩, ?_, h.nb, by simp [h.new, child], by simp [h.new, child], rfl⟩
  · have := h.log
    simp only [received] at this ⊢
    rw [List.filter_append, List.map_append, this]
    have : ¬s = 0 := by omega
    simp [this]
  · intro f hf
    rcases List.mem_cons.1 hf with rfl | hf
    · exact ⟨b, by omega, rfl⟩
    · obtain ⟨b', h1, h2⟩ := h.above f hf
      exact ⟨b', by omega, h2⟩

theorem turn {p : Nat} {σ : St} (h : At p σ) : ∃ σ', step σ (next σ) = some σ' ∧ At ((p + 1) % 8) σ' := by
  cases h with
  | p0 h => exact step0 h
  | p1 h => exact step1 h
  | p2 h => exact step2 h
  | p3 h => exact step3 h
  | p4 h => exact step4 h
  | p5 h => exact step5 h
  | p6 h => exact step6 h
  | p7 h => exact step7 h

theorem At.base {p : Nat} {σ : St} (h : At p σ) : Base σ := by cases h <;> (rename_i h; exact h.toBase)

theorem At.phase {p : Nat} {σ : St} (h : At p σ) : ∃ st cb, σ.phase = .visit first st cb [second] := by
  cases h <;> (rename_i h; exact ⟨_, _, h.phase⟩)

/-- Who acts: the bus, or the callback. -/
theorem At.who {p : Nat} {σ : St} (h : At p σ) : (2 ≤ p ∧ next σ = .run .go) ∨ (p < 2 ∧ (∀ c, next σ ≠ .run c) ∧
    ∃ m st b, σ.phase = .visit m st true b) := by
  cases h with
  | p0 h => exact .inr ⟨by omega, by simp [next, h.phase, h.kids], _, _, _, h.phase⟩
  | p1 h => exact .inr ⟨by omega, by simp [next, h.phase, h.kids, h.new, child], _, _, _, h.phase⟩
  | p2 h => exact .inl ⟨by omega, by simp [next, h.phase, h.kids, h.new, child]⟩
  | p3 h => exact .inl ⟨by omega, by simp [next, h.phase]⟩
  | p4 h => exact .inl ⟨by omega, by simp [next, h.phase]⟩
  | p5 h => exact .inl ⟨by omega, by simp [next, h.phase]⟩
  | p6 h => exact .inl ⟨by omega, by simp [next, h.phase]⟩
  | p7 h => exact .inl ⟨by omega, by simp [next, h.phase]⟩

/-- Round and round. -/
def states (σ : St) : Nat → St
  | 0 => σ
  | n + 1 => (step (states σ n) (next (states σ n))).getD (states σ n)

theorem round {σ : St} (h : At 0 σ) (n : Nat) : At (n % 8) (states σ n) := by
  induction n with
  | zero => exact h
  | succ n ih =>
    obtain ⟨σ', h1, h2⟩ := turn ih
    have : states σ (n + 1) = σ' := by simp [states, h1]
    rw [this]
    have e : (n + 1) % 8 = (n % 8 + 1) % 8 := by omega
    rw [e]; exact h2

/-- The execution that never ends. -/
def endless (σ : St) (h : At 0 σ) : Endless where
  st := states σ
  act := fun n => next (states σ n)
  ok := fun n => by
    obtain ⟨σ', h1, _⟩ := turn (round h n)
    simp [states, h1]

end LP.Bus.Spin
