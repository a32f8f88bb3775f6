import Verif.Lemma.Answered
import Verif.Prop.ActionEnd
/-!
# Executions without end that begin with a given one
-/
namespace LP.Action
open LP.Bus (Delivery BMsg)

/-- The bus thread looks at an empty queue again and again. -/
def doze : Nat → Bus.Phase
  | 0 => .asleep
  | 1 => .pred
  | 2 => .drowsy
  | n + 3 => doze n

theorem doze_step {σ : St} (hb : blocked σ = false) (hr : (σ.bus.w.bus 0).running = true) (hq : σ.bus.w.queue = []) (n : Nat) :
    step { σ with bus := { σ.bus with phase := doze n } } (.run .go) = .to { σ with bus := { σ.bus with phase := doze (n + 1) } } := by
  have hb' : blocked { σ with bus := { σ.bus with phase := doze n } } = false := hb
  have : ∀ n, doze n = .asleep ∧ doze (n + 1) = .pred ∨ doze n = .pred ∧ doze (n + 1) = .drowsy ∨ doze n = .drowsy ∧ doze (n + 1) = .asleep := by
    intro n
    induction n using doze.induct with
    | case1 => exact .inl ⟨rfl, rfl⟩
    | case2 => exact .inr (.inl ⟨rfl, rfl⟩)
    | case3 => exact .inr (.inr ⟨rfl, rfl⟩)
    | case4 n ih => exact ih
  simp only [step, run, hb', Bool.false_eq_true, if_false]
  rcases this n with ⟨e1, e2⟩ | ⟨e1, e2⟩ | ⟨e1, e2⟩ <;> simp [e1, e2, Bus.rstep, hr, hq]

/-- Nothing happens any more. -/
def Endless.resting (σ : St) (hb : blocked σ = false) (hr : (σ.bus.w.bus 0).running = true) (hq : σ.bus.w.queue = []) : Endless :=
  ⟨fun n => { σ with bus := { σ.bus with phase := doze n } }, fun _ => .run .go, doze_step hb hr hq⟩

/-- One more event at the beginning. -/
def Endless.cons (σ : St) (a : Act) (ρ : Endless) (h : step σ a = .to (ρ.st 0)) : Endless :=
  ⟨fun n => match n with | 0 => σ | n + 1 => ρ.st n, fun n => match n with | 0 => a | n + 1 => ρ.act n,
    fun n => match n with | 0 => h | n + 1 => ρ.ok n⟩

/-- A finite execution at the beginning. -/
theorem Endless.extend {σ τ : St} {as : List Act} (he : exec σ as = .to τ) (ρ : Endless) (h0 : ρ.st 0 = τ) :
    ∃ ρ' : Endless, ρ'.st 0 = σ ∧ (∀ k, ρ'.st (as.length + k) = ρ.st k ∧ ρ'.act (as.length + k) = ρ.act k) ∧
      (∀ P, Throughout P σ as → ∀ m, m ≤ as.length → P (ρ'.st m)) ∧
      (∀ Q, Along Q σ as → ∀ m, m < as.length → Q (ρ'.st m) (ρ'.act m)) ∧ ∀ m a, as[m]? = some a → ρ'.act m = a := by
  induction as generalizing σ with
  | nil =>
    cases he
    refine ⟨ρ, h0, fun k => by simp, fun P hP m hm => ?_, fun Q _ m hm => by simp at hm, fun m a h => by simp at h⟩
    have : m = 0 := by simpa using hm
    subst this; rw [h0]; exact hP
  | cons a as ih =>
    obtain ⟨τ', h1, h2⟩ := exec_cons he
    obtain ⟨ρ', e1, e2, e3, e4, e5⟩ := ih h2
    refine ⟨Endless.cons σ a ρ' (by rw [e1]; exact h1), rfl, fun k => ?_, fun P hP m hm => ?_, fun Q hQ m hm => ?_, fun m b hb => ?_⟩
    · rw [show (a :: as).length + k = (as.length + k) + 1 by simp; omega]; exact e2 k
    · cases m with
      | zero => exact hP.1
      | succ m => exact e3 P (hP.2 _ h1) m (by simpa using hm)
    · cases m with
      | zero => exact hQ.1
      | succ m => exact e4 Q (hQ.2 _ h1) m (by simpa using hm)
    · cases m with
      | zero => simp only [List.getElem?_cons_zero, Option.some.injEq] at hb; exact hb
      | succ m => exact e5 m b (by simpa using hb)

theorem mem_eraseIdx {α : Type} {l : List α} {i : Nat} {m : α} (h : m ∈ l) (h' : m ∉ l.eraseIdx i) : l[i]? = some m := by
  obtain ⟨j, hj⟩ := List.mem_iff_getElem?.1 h
  by_cases e : j = i
  · rw [← e]; exact hj
  · exact absurd (List.mem_eraseIdx_iff_getElem?.2 ⟨j, e, hj⟩) h'

theorem inflight_leaves {b b' : Bus.St} {a : Bus.Act} (h : Bus.step b a = some b') {m : BMsg} (hm : m ∈ b.inflight)
    (hm' : m ∉ b'.inflight) : ∃ i, a = .push i ∧ b.inflight[i]? = some m := by
  cases a with
  | push i =>
    simp only [Bus.step] at h
    split at h <;> cases h
    exact ⟨i, rfl, mem_eraseIdx hm hm'⟩
  | run c => rw [(rstep_cases h).2.2.2.2.2.1] at hm'; exact absurd hm hm'
  | _ =>
    simp only [Bus.step] at h
    try split at h
    all_goals first
      | (cases h; done)
      | (simp only [Option.some.injEq] at h; rw [← h] at hm'; simp_all; done)

/-- What leaves does so through `push` and `send`. -/
theorem leaves {σ σ' : St} {a : Act} (h : step σ a = .to σ') :
    (∀ m ∈ σ.bus.inflight, m ∉ σ'.bus.inflight → ∃ i, σ.bus.inflight[i]? = some m ∧ a = .bus (.push i)) ∧
    ∀ q ∈ σ.pending, q ∉ σ'.pending → ∃ i, σ.pending[i]? = some q ∧ a = .send i := by
  have hb : ∀ x, Bus.step σ.bus x = some σ'.bus → (∀ i, x = .push i → a = .bus (.push i)) →
      ∀ m ∈ σ.bus.inflight, m ∉ σ'.bus.inflight → ∃ i, σ.bus.inflight[i]? = some m ∧ a = .bus (.push i) := by
    intro x hx hi m h1 h2
    obtain ⟨i, e1, e2⟩ := inflight_leaves hx h1 h2
    exact ⟨i, e2, hi i e1⟩
  have same : σ'.bus = σ.bus →
      ∀ m ∈ σ.bus.inflight, m ∉ σ'.bus.inflight → ∃ i, σ.bus.inflight[i]? = some m ∧ a = .bus (.push i) :=
    fun e m h1 h2 => absurd h1 (by rw [← e]; exact h2)
  have keep : (∀ q, q ∈ σ.pending → q ∈ σ'.pending) → ∀ q ∈ σ.pending, q ∉ σ'.pending → ∃ i, σ.pending[i]? = some q ∧ a = .send i :=
    fun e q h1 h2 => absurd (e q h1) h2
  cases step_eff h with
  | client x b h1 h2 => exact ⟨hb x h2 (fun i e => by rw [e]), keep (fun _ h => h)⟩
  | endCb c b h1 h2 =>
    exact ⟨hb (.run c) (by rw [(endCb_same σ b c).1]; exact h2) (fun i e => by cases e),
      keep (fun q h => by rw [(endCb_same σ b c).2.2.1]; exact h)⟩
  | quiet c b h1 h2 => exact ⟨hb (.run c) h2 (fun i e => by cases e), keep (fun _ h => h)⟩
  | deliver c b d h1 h2 =>
    exact ⟨hb (.run c) (by rw [(dispatch_same _ d).1]; exact h2) (fun i e => by cases e),
      keep (fun q h => by rw [(dispatch_same _ d).2.2.2.1]; exact h)⟩
  | consumer q s topic b _ _ _ _ _ _ _ _ _ _ h2 => exact ⟨hb _ h2 (fun i e => by cases e), keep (fun _ h => h)⟩
  | provider s q topic cb b _ _ _ _ _ _ _ _ _ _ h2 => exact ⟨hb _ h2 (fun i e => by cases e), keep (fun _ h => h)⟩
  | send i q x b h1 h2 h3 => exact ⟨hb _ h3 (fun i e => by cases e), fun r h4 h5 => ⟨i, mem_eraseIdx h4 h5, rfl⟩⟩
  | respond p id t x b h1 h2 => exact ⟨hb _ h2 (fun i e => by cases e), keep (fun _ h => h)⟩
  | request c id k t x hx => exact ⟨same rfl, keep (fun q h => List.mem_append_left _ h)⟩
  | begin c id t onBus x hx => exact ⟨same rfl, keep (fun q h => List.mem_append_left _ h)⟩
  | _ => exact ⟨same rfl, keep (fun _ h => h)⟩

/-- If again and again nobody is in a call of `Publish` or `RequestAsync`, nobody stays in one. -/
theorem Endless.prompt_of_empty {ρ : Endless} (h : ∀ n, ∃ m, n ≤ m ∧ (ρ.st m).bus.inflight = [] ∧ (ρ.st m).pending = []) : ρ.Prompt := by
  constructor
  · intro n m hm
    obtain ⟨k, hk, he, -⟩ := h n
    obtain ⟨j, rfl⟩ := Nat.exists_eq_add_of_le hk
    clear hk
    induction j generalizing n with
    | zero => rw [Nat.add_zero] at he; rw [he] at hm; cases hm
    | succ j ih =>
      by_cases h' : m ∈ (ρ.st (n + 1)).bus.inflight
      · obtain ⟨k, i, h1, h2⟩ := ih (n + 1) h' (by rw [show n + 1 + j = n + (j + 1) by omega]; exact he)
        exact ⟨k, i, by omega, h2⟩
      · obtain ⟨i, h1, h2⟩ := (leaves (ρ.ok n)).1 m hm h'
        exact ⟨n, i, Nat.le_refl _, h1, h2⟩
  · intro n m hm
    obtain ⟨k, hk, -, he⟩ := h n
    obtain ⟨j, rfl⟩ := Nat.exists_eq_add_of_le hk
    clear hk
    induction j generalizing n with
    | zero => rw [Nat.add_zero] at he; rw [he] at hm; cases hm
    | succ j ih =>
      by_cases h' : m ∈ (ρ.st (n + 1)).pending
      · obtain ⟨k, i, h1, h2⟩ := ih (n + 1) h' (by rw [show n + 1 + j = n + (j + 1) by omega]; exact he)
        exact ⟨k, i, by omega, h2⟩
      · obtain ⟨i, h1, h2⟩ := (leaves (ρ.ok n)).2 m hm h'
        exact ⟨n, i, Nat.le_refl _, h1, h2⟩

/-- The executions of the examples: a finite one and then rest. -/
theorem Endless.finite {σ₀ σ : St} {a : Act} {as : List Act} {x : Cons} {y : Prov} {p : Nat} {id : Str} {f : Tree → Tree} {N : Nat}
    (he : exec σ₀ (a :: as) = .to σ) (hb : blocked σ = false) (hr : (σ.bus.w.bus 0).running = true) (hq : σ.bus.w.queue = [])
    (hph : σ.bus.phase = .asleep) (hin : σ.bus.inflight = []) (hpe : σ.pending = []) (hd : Distinct σ)
    (hlive : ∀ σ₁, step σ₀ a = .to σ₁ → Throughout (fun τ => Bus.Live τ.bus.w x.sub ∧ Bus.Live τ.bus.w y.sub ∧ Attached x.pub τ.bus ∧ Attached y.pub τ.bus) σ₁ as)
    (honest : ∀ σ₁, step σ₀ a = .to σ₁ → Along (fun τ a => Honest y.topic id p τ a ∧ Obedient p f τ a) σ₁ as)
    (hans : ∀ k' t', Ev.requested p k' id t' ∈ σ.evs → (p, id, f t') ∈ σ.replied)
    (hN : (∃ g, σ.frames[N]? = some g ∧ g.pc = .done) ∨ σ.frames.length ≤ N) :
    ∃ ρ : Endless, ρ.st 0 = σ₀ ∧ ρ.act 0 = a ∧ ρ.Fair ∧ ρ.Prompt ∧ ρ.NoNewBuses (as.length + 1) ∧ ρ.Served 0 x y p id f ∧
      ρ.Answers 0 p id f ∧ (∀ m, Distinct (ρ.st m)) ∧ ρ.Awake N := by
  have hst : (Endless.resting σ hb hr hq).st 0 = σ := by
    show { σ with bus := { σ.bus with phase := .asleep } } = σ
    rw [← hph]
  obtain ⟨σ₁, s1, s2⟩ := exec_cons he
  obtain ⟨ρ, e1, e2, e3, e4, e5⟩ := Endless.extend s2 (Endless.resting σ hb hr hq) hst
  have later : ∀ k, as.length ≤ k → ∃ n, ρ.st k = { σ with bus := { σ.bus with phase := doze n } } ∧ ρ.act k = .run .go := by
    intro k hk
    obtain ⟨n, rfl⟩ := Nat.exists_eq_add_of_le hk
    exact ⟨n, (e2 n).1, (e2 n).2⟩
  have hlv := e3 _ (hlive σ₁ s1)
  have hho := e4 _ (honest σ₁ s1)
  have hend : ρ.st as.length = σ := by have := (e2 0).1; rw [Nat.add_zero] at this; rw [this]; exact hst
  have lv : ∀ m, Bus.Live (ρ.st m).bus.w x.sub ∧ Bus.Live (ρ.st m).bus.w y.sub ∧ Attached x.pub (ρ.st m).bus ∧ Attached y.pub (ρ.st m).bus := by
    intro m
    by_cases hm : m ≤ as.length
    · exact hlv m hm
    · obtain ⟨n, e, -⟩ := later m (by omega)
      have := hlv as.length (Nat.le_refl _)
      rw [hend] at this
      rw [e]; exact this
  have ho : ∀ m, Honest y.topic id p (ρ.st m) (ρ.act m) ∧ Obedient p f (ρ.st m) (ρ.act m) := by
    intro m
    by_cases hm : m < as.length
    · exact hho m hm
    · obtain ⟨n, -, e⟩ := later m (by omega)
      rw [e]; exact ⟨trivial, by intro _ _ h; cases h⟩
  let ρ' := Endless.cons σ₀ a ρ (by rw [e1]; exact s1)
  have evs : ∀ m, (ρ'.st m).evs <+: σ.evs ∧ (ρ'.st m).asked <+: σ.asked := by
    intro m
    have h1 := Endless.mono (ρ := ρ') (Nat.le_max_left m (as.length + 1))
    have : ρ'.st (max m (as.length + 1)) = ρ.st (max m (as.length + 1) - 1) := by
      rw [show max m (as.length + 1) = (max m (as.length + 1) - 1) + 1 by omega]; rfl
    obtain ⟨n, e, -⟩ := later (max m (as.length + 1) - 1) (by omega)
    rw [this, e] at h1
    exact ⟨h1.evs, h1.asked⟩
  refine ⟨ρ', rfl, rfl, ?_, ?_, ?_, ⟨?_, ?_, ?_, ?_⟩, ?_, ?_, ?_⟩
  · intro n
    obtain ⟨_, -, e⟩ := later (n + as.length) (by omega)
    exact ⟨n + as.length + 1, by omega, .go, e⟩
  · refine Endless.prompt_of_empty (fun n => ⟨n + as.length + 1, by omega, ?_⟩)
    obtain ⟨_, e, -⟩ := later (n + as.length) (by omega)
    show (ρ.st (n + as.length)).bus.inflight = [] ∧ (ρ.st (n + as.length)).pending = []
    rw [e]; exact ⟨hin, hpe⟩
  · intro n hn b name
    obtain ⟨_, -, e⟩ := later (n - 1) (by omega)
    have : ρ'.act n = ρ.act (n - 1) := by
      rw [show n = (n - 1) + 1 by omega]; rfl
    rw [this, e]; simp
  · intro m hm
    obtain ⟨k, rfl⟩ := Nat.exists_eq_add_of_lt hm
    rw [Nat.zero_add]
    exact ⟨(lv k).1, (lv k).2.1⟩
  · intro m hm
    obtain ⟨k, rfl⟩ := Nat.exists_eq_add_of_lt hm
    rw [Nat.zero_add]
    exact (lv k).2.2
  · intro m hm
    obtain ⟨k, rfl⟩ := Nat.exists_eq_add_of_lt hm
    rw [Nat.zero_add]
    exact (ho k).1
  · intro m hm
    obtain ⟨k, rfl⟩ := Nat.exists_eq_add_of_lt hm
    rw [Nat.zero_add]
    exact (ho k).2
  · intro m hm k t h
    refine ⟨as.length + 1, by omega, ?_⟩
    show _ ∈ (ρ.st as.length).replied
    rw [hend]
    exact hans k t ((evs m).1.subset h)
  · intro m
    unfold Distinct
    exact List.Nodup.sublist ((evs m).2.sublist.map _) hd
  · intro n
    refine ⟨n + as.length + 1, by omega, fun hn => .inr (.inr ?_)⟩
    obtain ⟨_, e, -⟩ := later (n + as.length) (by omega)
    show ∃ g, (ρ.st (n + as.length)).frames[N]? = some g ∧ g.pc = .done
    rw [e]
    rcases hN with h | h
    · exact h
    · exfalso
      obtain ⟨g, hg⟩ : ∃ g, (ρ'.st n).frames[N]? = some g := ⟨_, List.getElem?_eq_getElem hn⟩
      obtain ⟨g', hg', -⟩ := (Endless.mono (ρ := ρ') (show n ≤ n + as.length + 1 by omega)).frames N g hg
      have : (ρ.st (n + as.length)).frames[N]? = some g' := hg'
      rw [e] at this
      have := (List.getElem?_eq_some_iff.1 this).1
      simp only at this
      omega

/-- The events of the examples. -/
def foreseen (σ : St) : Act → Bool
  | .wait _ => true
  | .lambda => true
  | a => expected σ a

theorem foreseen_sound {σ : St} {a : Act} (h : foreseen σ a = true) : Honest (bs "a") (bs "1") 0 σ a ∧ Obedient 0 echoed σ a := by
  unfold foreseen at h
  split at h
  · exact ⟨trivial, by intro _ _ e; cases e⟩
  · exact ⟨trivial, by intro _ _ e; cases e⟩
  · exact expected_sound h

/-- What the examples check. -/
def checked (a : Act) (as : List Act) (σ₀ σ : St) : Bool × Bool × Bool × Bool :=
  (before σ₀ && σ₀.frames.isEmpty && (match σ₀.bus.phase with | .off => false | _ => true),
    (match step σ₀ a with
      | .to σ₁ => watch (fun τ => atRoot 0 0 τ.bus && atRoot 1 1 τ.bus) foreseen σ₁ as
      | _ => false), after σ,
    !blocked σ && (σ.bus.w.bus 0).running && (σ.frames.length ≤ 0 || σ.frames.any (fun g => g.pc = .done)) && σ.frames.length ≤ 1)

theorem sample (a : Act) (as : List Act)
    (h : (match play (bs "r") setup with
      | none => none
      | some σ => match exec σ (a :: as) with
        | .to τ => some (checked a as σ τ)
        | _ => none) = some (true, true, true, true)) :
    ∃ ρ : Endless, ∃ x y T, Reachable (ρ.st 0) ∧ ρ.act 0 = a ∧ (ρ.st 0).cons[0]? = some x ∧ (ρ.st 0).provs[0]? = some y ∧
      x.topic = y.topic ∧ y.cb ≠ none ∧ Fresh (ρ.st 0) (bs "1") ∧ (ρ.st 0).bus.phase ≠ .off ∧ ρ.Fair ∧ ρ.Prompt ∧ ρ.NoNewBuses T ∧
      ρ.Served 0 x y 0 (bs "1") echoed ∧ ρ.Answers 0 0 (bs "1") echoed ∧ (∀ m, Distinct (ρ.st m)) ∧ (ρ.st 0).frames = [] ∧ ρ.Awake 0 := by
  obtain ⟨σ₀, σ, hr, he, e⟩ := play_obs2 (bs "r") setup (a :: as) (checked a as) (true, true, true, true) h
  simp only [checked, Prod.mk.injEq] at e
  obtain ⟨e1, e2, e3, e4⟩ := e
  obtain ⟨σ₁, h1, h2⟩ := exec_cons he
  rw [h1] at e2
  simp only at e2
  simp only [before, Bool.and_eq_true, beq_iff_eq, List.isEmpty_iff] at e1
  obtain ⟨⟨⟨⟨⟨⟨b1, b2⟩, b3⟩, b4⟩, b5⟩, b6⟩, b7⟩ := e1
  obtain ⟨x, hx, x1⟩ := List.map_eq_singleton_iff.1 b1
  obtain ⟨y, hy, y1⟩ := List.map_eq_singleton_iff.1 b2
  simp only [Prod.mk.injEq] at x1 y1
  obtain ⟨x1, x2, x3⟩ := x1
  obtain ⟨y1, y2, y3, y4⟩ := y1
  simp only [after, Bool.and_eq_true, beq_iff_eq, List.isEmpty_iff] at e3
  obtain ⟨⟨⟨⟨⟨⟨a1, a2⟩, a3⟩, a4⟩, a5⟩, a6⟩, a7⟩ := e3
  have hp : σ.bus.phase = .asleep := by cases hp : σ.bus.phase <;> simp [hp] at a4 ⊢
  simp only [Bool.and_eq_true, Bool.not_eq_true', decide_eq_true_eq, Bool.or_eq_true] at e4
  obtain ⟨⟨⟨c1, c2⟩, c3⟩, c4⟩ := e4
  obtain ⟨w1, w2⟩ := watch_sound (P' := fun τ => (Bus.Live τ.bus.w 0 ∧ Attached 0 τ.bus) ∧ Bus.Live τ.bus.w 1 ∧ Attached 1 τ.bus)
    (Q' := fun τ a => Honest (bs "a") (bs "1") 0 τ a ∧ Obedient 0 echoed τ a)
    (fun τ h => by
      simp only [Bool.and_eq_true] at h
      exact ⟨atRoot_sound h.1, atRoot_sound h.2⟩)
    (fun τ a h => foreseen_sound h) e2
  obtain ⟨ρ, r1, r2, r3, r4, r5, r6, r7, r8, r9⟩ := Endless.finite (x := x) (y := y) (p := 0) (id := bs "1") (f := echoed) (N := 0) he c1 c2 a3 hp a1 a2
    (by unfold Distinct; rw [a5]; decide)
    (fun τ ht => by
      rw [h1] at ht; cases ht
      rw [x2, x3, y2, y3]
      exact throughout_imp (fun _ h => ⟨h.1.1, h.2.1, h.1.2, h.2.2⟩) w1)
    (fun τ ht => by rw [h1] at ht; cases ht; rw [y1]; exact w2)
    (by
      intro k' t' hev
      have h7 := List.all_eq_true.1 a7 _ hev
      simp only [bne_self_eq_false, Bool.false_or, beq_iff_eq] at h7
      rw [asInt_some h7]
      obtain ⟨r, hr, h6⟩ := List.any_eq_true.1 a6
      split at h6
      · simp only [beq_iff_eq] at h6; subst h6; exact hr
      · cases h6)
    (by
      rcases c3 with c3 | c3
      · exact .inr c3
      · obtain ⟨g, hg, hd⟩ := List.any_eq_true.1 c3
        obtain ⟨i, hi⟩ := List.mem_iff_getElem?.1 hg
        have : i < σ.frames.length := (List.getElem?_eq_some_iff.1 hi).1
        have : i = 0 := by omega
        subst this
        exact .inl ⟨g, hi, by simpa using hd⟩)
  refine ⟨ρ, x, y, _, by rw [r1]; exact hr, r2, by rw [r1, hx]; rfl, by rw [r1, hy]; rfl, x1.trans y1.symm, by rw [y4]; simp, ?_, ?_, r3, r4, r5, r6, r7, r8,
    by rw [r1]; exact b6, r9⟩
  · rw [r1]
    refine ⟨?_, ?_, ?_⟩
    · rw [b3]; simp
    · rw [b4]; simp
    · rw [b5]; simp
  · rw [r1]; intro e; rw [e] at b7; cases b7

end LP.Action
