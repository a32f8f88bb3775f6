import Verif.Lemma.RemoteEndless
import Verif.Lemma.AnsweredPlay
import Verif.Prop.Remote
/-!
# Executions without end of two hosts that begin with a given one
-/
namespace LP.Remote
open LP.Action (Next Bears requestTopic responseTopic idOf responseOf envelope talk Pending Cons Prov Ev Distinct doze)
open LP.Bus (BMsg Delivery)

/-- The bus threads of both hosts look at empty queues in turn. -/
def dozing (σ : St) (n : Nat) : St :=
  { σ with host := fun r => { σ.host r with bus := { (σ.host r).bus with phase := doze (if r then n / 2 else (n + 1) / 2) } } }

/-- Whose turn it is. -/
def turn (n : Nat) : Bool := n % 2 == 1

theorem dozing_step {ends : Bool → End} {σ : St} (hb : ∀ r, Action.blocked (σ.host r) = false)
    (hr : ∀ r, ((σ.host r).bus.w.bus 0).running = true) (hq : ∀ r, (σ.host r).bus.w.queue = []) (n : Nat) :
    step ends (dozing σ n) (.act (turn n) (.run .go)) = .to (dozing σ (n + 1)) := by
  have key := fun r k => Action.doze_step (hb r) (hr r) (hq r) k
  have h2 : n % 2 = 0 ∨ n % 2 = 1 := by omega
  rcases h2 with h2 | h2
  · have ht : turn n = false := by simp [turn, h2]
    rw [ht]
    simp only [step, dozing, Bool.false_eq_true, if_false]
    rw [key false ((n + 1) / 2), show (n + 1) / 2 + 1 = (n + 1 + 1) / 2 by omega]
    simp only [Next.to.injEq, St.mk.injEq]
    refine ⟨?_, ?_⟩
    · funext r; cases r
      · simp [put]
      · simp only [put, Bool.true_eq_false, if_false, if_true]
        rw [show (n + 1) / 2 = n / 2 by omega]
    · funext r; cases r <;> simp [put, sends]
  · have ht : turn n = true := by simp [turn, h2]
    rw [ht]
    simp only [step, dozing, if_true]
    rw [key true (n / 2), show n / 2 + 1 = (n + 1) / 2 by omega]
    simp only [Next.to.injEq, St.mk.injEq]
    refine ⟨?_, ?_⟩
    · funext r; cases r
      · simp only [put, Bool.false_eq_true, if_false]
        rw [show (n + 1 + 1) / 2 = (n + 1) / 2 by omega]
      · simp [put]
    · funext r; cases r <;> simp [put, sends]

namespace Endless
variable {ends : Bool → End}

/-- Nothing happens any more. -/
def resting (ends : Bool → End) (σ : St) (hb : ∀ r, Action.blocked (σ.host r) = false)
    (hr : ∀ r, ((σ.host r).bus.w.bus 0).running = true) (hq : ∀ r, (σ.host r).bus.w.queue = []) : Endless ends :=
  ⟨dozing σ, fun n => .act (turn n) (.run .go), dozing_step hb hr hq⟩

/-- One more event at the beginning. -/
def cons (σ : St) (a : Act) (ρ : Endless ends) (h : step ends σ a = .to (ρ.st 0)) : Endless ends :=
  ⟨fun n => match n with | 0 => σ | n + 1 => ρ.st n, fun n => match n with | 0 => a | n + 1 => ρ.act n,
    fun n => match n with | 0 => h | n + 1 => ρ.ok n⟩

/-- A finite execution at the beginning. -/
theorem extend {σ τ : St} {as : List Act} (he : exec ends σ as = .to τ) (ρ : Endless ends) (h0 : ρ.st 0 = τ) :
    ∃ ρ' : Endless ends, ρ'.st 0 = σ ∧ (∀ k, ρ'.st (as.length + k) = ρ.st k ∧ ρ'.act (as.length + k) = ρ.act k) ∧
      (∀ P, Throughout ends P σ as → ∀ m, m ≤ as.length → P (ρ'.st m)) ∧
      (∀ Q, Along ends Q σ as → ∀ m, m < as.length → Q (ρ'.st m) (ρ'.act m)) := by
  induction as generalizing σ with
  | nil =>
    cases he
    refine ⟨ρ, h0, fun k => by simp, fun P hP m hm => ?_, fun Q _ m hm => by simp at hm⟩
    have : m = 0 := by simpa using hm
    subst this; rw [h0]; exact hP
  | cons a as ih =>
    obtain ⟨τ', h1, h2⟩ := exec_cons he
    obtain ⟨ρ', e1, e2, e3, e4⟩ := ih h2
    refine ⟨Endless.cons σ a ρ' (by rw [e1]; exact h1), rfl, fun k => ?_, fun P hP m hm => ?_, fun Q hQ m hm => ?_⟩
    · rw [show (a :: as).length + k = (as.length + k) + 1 by simp; omega]; exact e2 k
    · cases m with
      | zero => exact hP.1
      | succ m => exact e3 P (hP.2 _ h1) m (by simpa using hm)
    · cases m with
      | zero => exact hQ.1
      | succ m => exact e4 Q (hQ.2 _ h1) m (by simpa using hm)

/-- If a message, a call or something on its way disappears, then by the event meant for it. -/
theorem leaves {σ σ' : St} {a : Act} (h : step ends σ a = .to σ') (r : Bool) :
    (∀ m ∈ (σ.host r).bus.inflight, m ∉ (σ'.host r).bus.inflight →
      ∃ i, (σ.host r).bus.inflight[i]? = some m ∧ a = .act r (.bus (.push i))) ∧
    (∀ q ∈ (σ.host r).pending, q ∉ (σ'.host r).pending → ∃ i, (σ.host r).pending[i]? = some q ∧ a = .act r (.send i)) ∧
    ∀ m ∈ σ.way r, m ∉ σ'.way r → ∃ i, (σ.way r)[i]? = some m ∧ a = .receive r i := by
  cases a with
  | act s x =>
    obtain ⟨g1, g2, g3, g4⟩ := step_act h
    have hway : ∀ m ∈ σ.way r, m ∉ σ'.way r → ∃ i, (σ.way r)[i]? = some m ∧ Act.act s x = .receive r i := by
      intro m h1 h2
      by_cases e : r = s
      · subst e; rw [g3] at h2; exact absurd h1 h2
      · rw [other e] at h1 h2; rw [g4] at h2; exact absurd (List.mem_append_left _ h1) h2
    by_cases e : r = s
    · subst e
      obtain ⟨l1, l2⟩ := Action.leaves g1
      refine ⟨fun m h1 h2 => ?_, fun q h1 h2 => ?_, hway⟩
      · obtain ⟨i, i1, rfl⟩ := l1 m h1 h2; exact ⟨i, i1, rfl⟩
      · obtain ⟨i, i1, rfl⟩ := l2 q h1 h2; exact ⟨i, i1, rfl⟩
    · have : r = !s := other e
      subst this
      rw [g2]
      exact ⟨fun m h1 h2 => absurd h1 h2, fun m h1 h2 => absurd h1 h2, hway⟩
  | receive s i =>
    obtain ⟨m, hm, g1, g2, g3, g4⟩ := step_receive h
    by_cases e : r = s
    · subst e
      obtain ⟨l1, l2⟩ := Action.leaves g1
      refine ⟨fun m h1 h2 => ?_, fun q h1 h2 => ?_, fun m h1 h2 => ?_⟩
      · obtain ⟨i, i1, h⟩ := l1 m h1 h2; cases h
      · obtain ⟨i, i1, h⟩ := l2 q h1 h2; cases h
      · rw [g4] at h2; exact ⟨i, Action.mem_eraseIdx h1 h2, rfl⟩
    · have : r = !s := other e
      subst this
      rw [g2, g3]
      exact ⟨fun m h1 h2 => absurd h1 h2, fun m h1 h2 => absurd h1 h2, fun m h1 h2 => absurd h1 h2⟩

/-- If again and again nobody is in a call and nothing on its way, nothing stays for ever. -/
theorem prompt_of_empty {ρ : Endless ends}
    (h : ∀ n, ∃ m, n ≤ m ∧ ∀ r, ((ρ.st m).host r).bus.inflight = [] ∧ ((ρ.st m).host r).pending = [] ∧ (ρ.st m).way r = []) : ρ.Prompt := by
  have key : ∀ {α : Type} (L : St → List α) (E : Nat → Act), (∀ n, ∃ m, n ≤ m ∧ L (ρ.st m) = []) →
      (∀ n, ∀ a ∈ L (ρ.st n), a ∉ L (ρ.st (n + 1)) → ∃ i, (L (ρ.st n))[i]? = some a ∧ ρ.act n = E i) →
      ∀ n, ∀ a ∈ L (ρ.st n), ∃ k i, n ≤ k ∧ (L (ρ.st k))[i]? = some a ∧ ρ.act k = E i := by
    intro α L E h0 h1 n a ha
    obtain ⟨k, hk, he⟩ := h0 n
    obtain ⟨j, rfl⟩ := Nat.exists_eq_add_of_le hk
    clear hk
    induction j generalizing n with
    | zero => rw [Nat.add_zero] at he; rw [he] at ha; cases ha
    | succ j ih =>
      by_cases h' : a ∈ L (ρ.st (n + 1))
      · obtain ⟨k, i, g1, g2⟩ := ih (n + 1) h' (by rw [show n + 1 + j = n + (j + 1) by omega]; exact he)
        exact ⟨k, i, by omega, g2⟩
      · obtain ⟨i, g1, g2⟩ := h1 n a ha h'
        exact ⟨n, i, Nat.le_refl _, g1, g2⟩
  refine ⟨fun r => ?_, fun r => ?_, fun r => ?_⟩
  · refine key (fun σ => (σ.host r).bus.inflight) (fun i => .act r (.bus (.push i))) (fun n => ?_) (fun n => (leaves (ρ.ok n) r).1)
    obtain ⟨m, h1, h2⟩ := h n
    exact ⟨m, h1, (h2 r).1⟩
  · refine key (fun σ => (σ.host r).pending) (fun i => .act r (.send i)) (fun n => ?_) (fun n => (leaves (ρ.ok n) r).2.1)
    obtain ⟨m, h1, h2⟩ := h n
    exact ⟨m, h1, (h2 r).2.1⟩
  · refine key (fun σ => σ.way r) (fun i => .receive r i) (fun n => ?_) (fun n => (leaves (ρ.ok n) r).2.2)
    obtain ⟨m, h1, h2⟩ := h n
    exact ⟨m, h1, (h2 r).2.2⟩

/-- The executions of the examples: a finite one and then rest. -/
theorem finite {σ₀ σ : St} {a : Act} {as : List Act} {s : Bool} {x : Cons} {y : Prov} {p : Nat} {id : Str} {f : Tree → Tree} {N : Nat}
    (he : exec ends σ₀ (a :: as) = .to σ) (hb : ∀ r, Action.blocked (σ.host r) = false)
    (hr : ∀ r, ((σ.host r).bus.w.bus 0).running = true) (hset : Settled σ) (hph : ∀ r, (σ.host r).bus.phase = .asleep)
    (hd : Distinct (σ.host s))
    (hlive : ∀ σ₁, step ends σ₀ a = .to σ₁ → Throughout ends (fun τ => (∀ r, Up (ends r) (τ.host r)) ∧ Bus.Live (τ.host s).bus.w x.sub ∧
      Bus.Live (τ.host (!s)).bus.w y.sub ∧ Heard (ends s) x.pub (τ.host s) ∧ Heard (ends (!s)) y.pub (τ.host (!s))) σ₁ as)
    (fair : ∀ σ₁, step ends σ₀ a = .to σ₁ → Along ends (Remote.Fair s y.topic id p f) σ₁ as)
    (hans : ∀ k' t', Ev.requested p k' id t' ∈ (σ.host (!s)).evs → (p, id, f t') ∈ (σ.host (!s)).replied)
    (hN : (∃ g, (σ.host s).frames[N]? = some g ∧ g.pc = .done) ∨ (σ.host s).frames.length ≤ N) :
    ∃ ρ : Endless ends, ρ.st 0 = σ₀ ∧ ρ.act 0 = a ∧ ρ.Fair ∧ ρ.Prompt ∧ ρ.NoNewBuses (as.length + 1) ∧ ρ.Served 0 s x y p id f ∧
      ρ.Answers 0 (!s) p id f ∧ (∀ m, Distinct ((ρ.st m).host s)) ∧ ρ.Awake s N := by
  have hq : ∀ r, (σ.host r).bus.w.queue = [] := fun r => (hset r).1.1
  have hst : (Endless.resting ends σ hb hr hq).st 0 = σ := by
    show dozing σ 0 = σ
    have : ∀ r, ({ σ.host r with bus := { (σ.host r).bus with phase := doze (if r then 0 / 2 else (0 + 1) / 2) } } : Action.St) = σ.host r := by
      intro r
      have := hph r
      rw [show doze (if r then 0 / 2 else (0 + 1) / 2) = .asleep by cases r <;> rfl, ← this]
    unfold dozing
    simp only [this]
  obtain ⟨σ₁, s1, s2⟩ := exec_cons he
  obtain ⟨ρ, e1, e2, e3, e4⟩ := Endless.extend s2 (Endless.resting ends σ hb hr hq) hst
  have later : ∀ k, as.length ≤ k → ρ.st k = dozing σ (k - as.length) ∧ ρ.act k = .act (turn (k - as.length)) (.run .go) := by
    intro k hk
    obtain ⟨n, rfl⟩ := Nat.exists_eq_add_of_le hk
    rw [show as.length + n - as.length = n by omega]
    exact ⟨(e2 n).1, (e2 n).2⟩
  have hlv := e3 _ (hlive σ₁ s1)
  have hho := e4 _ (fair σ₁ s1)
  have hend : ρ.st as.length = σ := by have := (e2 0).1; rw [Nat.add_zero] at this; rw [this]; exact hst
  have lv : ∀ m, (∀ r, Up (ends r) ((ρ.st m).host r)) ∧ Bus.Live ((ρ.st m).host s).bus.w x.sub ∧
      Bus.Live ((ρ.st m).host (!s)).bus.w y.sub ∧ Heard (ends s) x.pub ((ρ.st m).host s) ∧ Heard (ends (!s)) y.pub ((ρ.st m).host (!s)) := by
    intro m
    by_cases hm : m ≤ as.length
    · exact hlv m hm
    · obtain ⟨e, -⟩ := later m (by omega)
      have := hlv as.length (Nat.le_refl _)
      rw [hend] at this
      rw [e]; exact this
  have ho : ∀ m, Remote.Fair s y.topic id p f (ρ.st m) (ρ.act m) := by
    intro m
    by_cases hm : m < as.length
    · exact hho m hm
    · obtain ⟨-, e⟩ := later m (by omega)
      rw [e]
      exact ⟨fun _ => trivial, fun _ => ⟨trivial, by intro _ _ h; cases h⟩⟩
  let ρ' := Endless.cons σ₀ a ρ (by rw [e1]; exact s1)
  have evs : ∀ m r, Action.Mono ((ρ'.st m).host r) (σ.host r) := by
    intro m r
    have h1 := Action.Endless.mono (ρ := ρ'.host r) (Nat.le_max_left m (as.length + 1))
    have : ρ'.st (max m (as.length + 1)) = ρ.st (max m (as.length + 1) - 1) := by
      rw [show max m (as.length + 1) = (max m (as.length + 1) - 1) + 1 by omega]; rfl
    obtain ⟨e, -⟩ := later (max m (as.length + 1) - 1) (by omega)
    have h1 : Action.Mono ((ρ'.st m).host r) ((ρ'.st (max m (as.length + 1))).host r) := h1
    rw [this, e] at h1
    exact ⟨h1.log, h1.evs, h1.asked, h1.threw, h1.cons, h1.provs, h1.frames⟩
  refine ⟨ρ', rfl, rfl, ?_, ?_, ?_, ⟨?_, ?_, ?_, ?_⟩, ?_, ?_, ?_⟩
  · intro r n
    refine ⟨2 * n + r.toNat + as.length + 1, by omega, .go, ?_⟩
    show ρ.act (2 * n + r.toNat + as.length) = _
    rw [(later _ (by omega)).2]
    rw [show 2 * n + r.toNat + as.length - as.length = 2 * n + r.toNat by omega]
    cases r <;> simp [turn] <;> omega
  · refine Endless.prompt_of_empty (fun n => ⟨n + as.length + 1, by omega, fun r => ?_⟩)
    show ((ρ.st (n + as.length)).host r).bus.inflight = [] ∧ ((ρ.st (n + as.length)).host r).pending = [] ∧ (ρ.st (n + as.length)).way r = []
    rw [(later (n + as.length) (by omega)).1]
    exact ⟨(hset r).2.1, (hset r).2.2.1, (hset r).2.2.2⟩
  · intro n hn r b name
    have : ρ'.act n = ρ.act (n - 1) := by
      rw [show n = (n - 1) + 1 by omega]; rfl
    rw [this, (later (n - 1) (by omega)).2]; simp
  · intro m hm
    obtain ⟨k, rfl⟩ := Nat.exists_eq_add_of_lt hm
    rw [Nat.zero_add]
    exact (lv k).1
  · intro m hm
    obtain ⟨k, rfl⟩ := Nat.exists_eq_add_of_lt hm
    rw [Nat.zero_add]
    exact ⟨(lv k).2.1, (lv k).2.2.1⟩
  · intro m hm
    obtain ⟨k, rfl⟩ := Nat.exists_eq_add_of_lt hm
    rw [Nat.zero_add]
    exact (lv k).2.2.2
  · intro m hm
    obtain ⟨k, rfl⟩ := Nat.exists_eq_add_of_lt hm
    rw [Nat.zero_add]
    exact ho k
  · intro m hm k t h
    refine ⟨as.length + 1, by omega, ?_⟩
    show _ ∈ ((ρ.st as.length).host (!s)).replied
    rw [hend]
    exact hans k t ((evs m (!s)).evs.subset h)
  · intro m
    unfold Distinct
    exact List.Nodup.sublist ((evs m s).asked.sublist.map _) hd
  · intro n
    refine ⟨n + as.length + 1, by omega, fun hn => .inr (.inr ?_)⟩
    show ∃ g, ((ρ.st (n + as.length)).host s).frames[N]? = some g ∧ g.pc = .done
    rw [(later (n + as.length) (by omega)).1]
    rcases hN with h | h
    · exact h
    · exfalso
      obtain ⟨g, hg⟩ : ∃ g, ((ρ'.st n).host s).frames[N]? = some g := ⟨_, List.getElem?_eq_getElem hn⟩
      obtain ⟨g', hg', -⟩ := (evs n s).frames N g hg
      have := (List.getElem?_eq_some_iff.1 hg').1
      omega

end Endless
/-- The events of the examples. -/
def foreseen (σ : St) : Act → Bool
  | .act false (.wait _) => true
  | .act false .lambda => true
  | a => expected σ a

theorem foreseen_sound {σ : St} {a : Act} (h : foreseen σ a = true) : Fair false (bs "a") (bs "1") 0 Action.echoed σ a := by
  unfold foreseen at h
  split at h
  · exact ⟨fun _ => trivial, by simp⟩
  · exact ⟨fun _ => trivial, by simp⟩
  · exact expected_sound h

/-- What the examples check about the state before the request. -/
def ready (σ : St) : Bool :=
  before σ && (σ.host false).frames.isEmpty && [false, true].all (fun r => match (σ.host r).bus.phase with | .off => false | _ => true)

/-- What the examples check about the final state. -/
def rested (σ : St) : Bool :=
  after σ && [false, true].all (fun r => !Action.blocked (σ.host r) && ((σ.host r).bus.w.bus 0).running) &&
    ((σ.host false).frames.length ≤ 0 || (σ.host false).frames.any (fun g => g.pc = .done)) && (σ.host false).frames.length ≤ 1

theorem sample (a : Act) (as : List Act)
    (h : (match start with
      | none => false
      | some s => watch (fun _ => true) (fun _ _ => true) (fun σ₀ => ready σ₀ &&
          watch (fun _ => true) (fun _ _ => true) (fun σ₁ => watch served foreseen rested σ₁ as) σ₀ [a]) s prepare) = true) :
    ∃ ρ : Endless eastWest, ∃ x y T, (∀ r, Action.Reachable ((ρ.st 0).host r)) ∧ ρ.act 0 = a ∧ ((ρ.st 0).host false).cons[0]? = some x ∧
      ((ρ.st 0).host true).provs[0]? = some y ∧ x.topic = y.topic ∧ y.cb ≠ none ∧ Fresh (ρ.st 0) (bs "1") ∧
      (∀ r, ((ρ.st 0).host r).bus.phase ≠ .off) ∧ (∀ r, (eastWest r).sub < ((ρ.st 0).host r).bus.w.ns) ∧ ρ.Fair ∧ ρ.Prompt ∧
      ρ.NoNewBuses T ∧ ρ.Served 0 false x y 0 (bs "1") Action.echoed ∧ ρ.Answers 0 true 0 (bs "1") Action.echoed ∧
      (∀ m, Distinct ((ρ.st m).host false)) ∧ ((ρ.st 0).host false).frames = [] ∧ ρ.Awake false 0 := by
  cases hs : start with
  | none => rw [hs] at h; cases h
  | some s =>
  rw [hs] at h
  have hr : ∀ r, Action.Reachable (s.host r) := by
    simp only [start, Option.map_eq_some_iff] at hs
    obtain ⟨a, ha, rfl⟩ := hs
    exact fun r => ⟨_, a, [], ha, rfl⟩
  obtain ⟨-, -, σ₀, h1, h2⟩ := watch_sound (P' := fun _ => True) (Q' := fun _ _ => True) (fun _ _ => trivial) (fun _ _ _ => trivial) h
  simp only [Bool.and_eq_true] at h2
  obtain ⟨e1, h2⟩ := h2
  obtain ⟨-, -, σ₁, h3, h4⟩ := watch_sound (P' := fun _ => True) (Q' := fun _ _ => True) (fun _ _ => trivial) (fun _ _ _ => trivial) h2
  obtain ⟨w1, w2, σ, h5, e3⟩ := watch_sound (P' := fun τ => ∀ r, Up (eastWest r) (τ.host r) ∧ Bus.Live (τ.host r).bus.w 0 ∧
    Heard (eastWest r) 0 (τ.host r)) (Q' := Fair false (bs "a") (bs "1") 0 Action.echoed) (fun _ h => served_sound h)
    (fun _ _ h => foreseen_sound h) h4
  have hσ₀ := origin_reach hr h1
  obtain ⟨τ, h3', h3''⟩ := exec_cons h3
  cases h3''
  simp only [ready, before, Bool.and_eq_true, beq_iff_eq, List.isEmpty_iff] at e1
  obtain ⟨⟨⟨⟨b1, b2⟩, b3⟩, b4⟩, b5⟩ := e1
  have b3 : ∀ r, ((σ₀.host r).bus.inflight ++ (σ₀.host r).bus.published) = [] ∧ (σ₀.host r).asked = [] ∧ (σ₀.host r).replied = [] ∧
      σ₀.way r = [] ∧ 1 < (σ₀.host r).bus.w.ns := fun r => by
    have := List.all_eq_true.1 b3 r (by cases r <;> simp)
    simpa [Bool.and_eq_true, and_assoc] using this
  obtain ⟨x, hx, x1⟩ := List.map_eq_singleton_iff.1 b1
  obtain ⟨y, hy, y1⟩ := List.map_eq_singleton_iff.1 b2
  simp only [Prod.mk.injEq] at x1 y1
  obtain ⟨x1, x2, x3⟩ := x1
  obtain ⟨y1, y2, y3, y4⟩ := y1
  simp only [rested, after, Bool.and_eq_true, beq_iff_eq, decide_eq_true_eq, Bool.or_eq_true] at e3
  obtain ⟨⟨⟨⟨⟨⟨a1, a5⟩, a6⟩, a7⟩, a8⟩, c3⟩, c4⟩ := e3
  have a8 : ∀ r, Action.blocked (σ.host r) = false ∧ ((σ.host r).bus.w.bus 0).running = true := fun r => by
    have := List.all_eq_true.1 a8 r (by cases r <;> simp)
    simpa [Bool.and_eq_true] using this
  have hset : ∀ r, (σ.host r).bus.w.queue = [] ∧ (σ.host r).bus.inflight = [] ∧ (σ.host r).pending = [] ∧ σ.way r = [] ∧
      (σ.host r).bus.phase = .asleep := fun r => by
    have := List.all_eq_true.1 a1 r (by cases r <;> simp)
    simp only [Bool.and_eq_true, List.isEmpty_iff] at this
    obtain ⟨⟨⟨⟨c1, c2⟩, c3⟩, c4⟩, c5⟩ := this
    have hp : (σ.host r).bus.phase = .asleep := by cases hp : (σ.host r).bus.phase <;> simp [hp] at c4 ⊢
    exact ⟨c3, c1, c2, c5, hp⟩
  obtain ⟨ρ, r1, r2, r3, r4, r5, r6, r7, r8, r9⟩ := Endless.finite (ends := eastWest) (s := false) (x := x) (y := y) (p := 0) (id := bs "1")
    (f := Action.echoed) (N := 0) (σ₀ := σ₀) (σ := σ) (a := a) (as := as) (by simp only [exec, h3']; exact h5) (fun r => (a8 r).1) (fun r => (a8 r).2)
    (fun r => ⟨⟨(hset r).1, by rw [(hset r).2.2.2.2]; rfl, by rw [(hset r).2.2.2.2]; simp⟩, (hset r).2.1, (hset r).2.2.1, (hset r).2.2.2.1⟩)
    (fun r => (hset r).2.2.2.2) (by unfold Distinct; rw [a5]; decide)
    (fun τ ht => by
      rw [h3'] at ht; cases ht
      rw [x2, x3, y2, y3]
      exact throughout_imp (fun _ h => ⟨fun r => (h r).1, (h false).2.1, (h true).2.1, (h false).2.2, (h true).2.2⟩) w1)
    (fun τ ht => by rw [h3'] at ht; cases ht; rw [y1]; exact w2)
    (by
      intro k' t' hev
      have h7 := List.all_eq_true.1 a7 _ hev
      simp only [bne_self_eq_false, Bool.false_or, beq_iff_eq] at h7
      rw [Action.asInt_some h7]
      obtain ⟨r, hr, h6⟩ := List.any_eq_true.1 a6
      split at h6
      · simp only [beq_iff_eq] at h6; subst h6; exact hr
      · cases h6)
    (by
      rcases c3 with c3 | c3
      · exact .inr c3
      · obtain ⟨g, hg, hd⟩ := List.any_eq_true.1 c3
        obtain ⟨i, hi⟩ := List.mem_iff_getElem?.1 hg
        have : i < (σ.host false).frames.length := (List.getElem?_eq_some_iff.1 hi).1
        have : i = 0 := by omega
        subst this
        exact .inl ⟨g, hi, by simpa using hd⟩)
  refine ⟨ρ, x, y, _, by rw [r1]; exact hσ₀, r2, by rw [r1, hx]; rfl, by rw [r1, hy]; rfl, x1.trans y1.symm, by rw [y4]; simp, ?_, ?_, ?_, r3, r4,
    r5, r6, r7, r8, by rw [r1]; exact b4, r9⟩
  · rw [r1]
    intro r
    obtain ⟨c1, c2, c3, c4, -⟩ := b3 r
    refine ⟨⟨?_, ?_, ?_⟩, ?_⟩
    · rw [c1]; simp
    · rw [c2]; simp
    · rw [c3]; simp
    · rw [c4]; simp
  · rw [r1]
    intro r e
    have := List.all_eq_true.1 b5 r (by cases r <;> simp)
    rw [e] at this; cases this
  · rw [r1]; exact fun r => (b3 r).2.2.2.2

end LP.Remote
