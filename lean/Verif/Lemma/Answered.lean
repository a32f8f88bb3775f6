import Verif.Lemma.ActionTalk
import Verif.Lemma.ActionDone
import Verif.Prop.Action
import Verif.Prop.Endless
import Verif.Spec.Answered
/-!
# Requests on executions without end
-/
namespace LP.Action
open LP.Bus (Delivery BMsg)

/-- Setting a callback to what it is anyway. -/
theorem setCb_same {b : Bus.St} {s : Nat} (hs : s < b.w.ns) : Bus.step b (.setCb s (b.w.sub s).cb) = some b := by
  have h : Bus.setCallback s (b.w.sub s).cb b.w = b.w := by
    unfold Bus.setCallback Bus.World.setSub
    have : (fun i => if i = s then { b.w.sub s with cb := (b.w.sub s).cb } else b.w.sub i) = b.w.sub := by
      funext i
      split
      · rename_i e; rw [e]
      · rfl
    rw [this]
  simp only [Bus.step, if_pos hs, h]

/-- Every event of the actions is one event of the bus. -/
theorem step_image {σ σ' : St} {a : Act} (h : step σ a = .to σ') {s : Nat} (hs : s < σ.bus.w.ns) :
    ∃ x, Bus.step σ.bus x = some σ'.bus ∧ (∀ c, a = .run c → x = .run c) ∧ (x = .run .throwing → a = .run .throwing) ∧
      ∀ b name, x = .createChild b name → a = .bus (.createChild b name) := by
  have same : σ'.bus = σ.bus → (∀ c, a ≠ .run c) → ∃ x, Bus.step σ.bus x = some σ'.bus ∧ (∀ c, a = .run c → x = .run c) ∧
      (x = .run .throwing → a = .run .throwing) ∧ ∀ b name, x = .createChild b name → a = .bus (.createChild b name) := by
    intro e hr
    refine ⟨.setCb s (σ.bus.w.sub s).cb, by rw [e]; exact setCb_same hs, fun c hc => absurd hc (hr c), (fun h => by cases h), fun _ _ h => by cases h⟩
  cases step_eff h with
  | client a b h1 h2 =>
    exact ⟨a, h2, (fun _ h => by cases h), fun e => absurd e (client_not_run h1 _), fun _ _ e => by rw [e]⟩
  | endCb c b h1 h2 =>
    exact ⟨.run c, by rw [(endCb_same σ b c).1]; exact h2, fun _ e => by cases e; rfl, fun e => by cases e; rfl, fun _ _ e => by cases e⟩
  | quiet c b h1 h2 => exact ⟨.run c, h2, fun _ e => by cases e; rfl, fun e => by cases e; rfl, fun _ _ e => by cases e⟩
  | deliver c b d h1 h2 =>
    exact ⟨.run c, by rw [(dispatch_same _ d).1]; exact h2, fun _ e => by cases e; rfl, fun e => by cases e; rfl, fun _ _ e => by cases e⟩
  | consumer q s topic b _ _ _ _ _ _ _ _ _ _ hb =>
    exact ⟨_, hb, (fun _ h => by cases h), (fun h => by cases h), fun _ _ h => by cases h⟩
  | provider s q topic cb b _ _ _ _ _ _ _ _ _ _ hb =>
    exact ⟨_, hb, (fun _ h => by cases h), (fun h => by cases h), fun _ _ h => by cases h⟩
  | send i p x b h1 h2 hb => exact ⟨_, hb, (fun _ h => by cases h), (fun h => by cases h), fun _ _ h => by cases h⟩
  | respond p id t x b h1 hb => exact ⟨_, hb, (fun _ h => by cases h), (fun h => by cases h), fun _ _ h => by cases h⟩
  | _ => exact same rfl (fun _ h => by cases h)

namespace Endless
variable {ρ : Endless}

theorem reach (h : Reachable (ρ.st 0)) (n : Nat) : Reachable (ρ.st n) := by
  induction n with
  | zero => exact h
  | succ n ih => exact ih.step (ρ.ok n)

theorem mono {n m : Nat} (h : n ≤ m) : Mono (ρ.st n) (ρ.st m) := by
  induction h with
  | refl => exact .refl _
  | step _ ih => exact ih.trans (mono_step (ρ.ok _))

theorem published {n m : Nat} (h : n ≤ m) : (ρ.st n).bus.published <+: (ρ.st m).bus.published := by
  induction h with
  | refl => exact List.prefix_refl _
  | step _ ih => exact ih.trans (talk_step (ρ.ok _)).1

/-- The execution from moment `n` on. -/
def tail (ρ : Endless) (n : Nat) : Endless := ⟨fun k => ρ.st (n + k), fun k => ρ.act (n + k), fun k => ρ.ok (n + k)⟩

/-- What the bus does meanwhile. -/
theorem bus {s : Nat} (hs : ∀ n, s < (ρ.st n).bus.w.ns) : ∃ β : Bus.Endless, (∀ n, β.st n = (ρ.st n).bus) ∧
    (∀ n c, ρ.act n = .run c → β.act n = .run c) ∧ (∀ n, β.act n = .run .throwing → ρ.act n = .run .throwing) ∧
    ∀ n b name, β.act n = .createChild b name → ρ.act n = .bus (.createChild b name) := by
  refine ⟨⟨fun n => (ρ.st n).bus, fun n => (step_image (ρ.ok n) (hs n)).choose,
    fun n => (step_image (ρ.ok n) (hs n)).choose_spec.1⟩, fun n => rfl, ?_, ?_, ?_⟩
  · intro n; exact (step_image (ρ.ok n) (hs n)).choose_spec.2.1
  · intro n; exact (step_image (ρ.ok n) (hs n)).choose_spec.2.2.1
  · intro n; exact (step_image (ρ.ok n) (hs n)).choose_spec.2.2.2

theorem push_bus {b b' : Bus.St} {a : Bus.Act} (h : Bus.step b a = some b') {m : BMsg} (hm : m ∈ b'.published) :
    m ∈ b.published ∨ (b'.published = b.published ++ [m] ∧ b'.fates = b.fates) := by
  by_cases hp : ∃ i, a = .push i
  · obtain ⟨i, rfl⟩ := hp
    simp only [Bus.step] at h
    split at h <;> cases h
    simp only [List.mem_append, List.mem_singleton] at hm ⊢
    rcases hm with hm | rfl
    · exact .inl hm
    · exact .inr (by simp)
  · rw [Bus.published_step (fun i e => hp ⟨i, e⟩) h] at hm
    exact .inl hm

theorem push_published {σ σ' : St} {a : Act} (h : step σ a = .to σ') {m : BMsg} (hm : m ∈ σ'.bus.published) :
    m ∈ σ.bus.published ∨ (σ'.bus.published = σ.bus.published ++ [m] ∧ σ'.bus.fates = σ.bus.fates) := by
  obtain ⟨l, e1, e2, -⟩ := step_bus h
  match l, e2, e1 with
  | [], _, e1 => rw [Bus.exec, Option.some.injEq] at e1; rw [← e1] at hm; exact .inl hm
  | [x], _, e1 =>
    cases hx : Bus.step σ.bus x with
    | none => simp [Bus.exec, hx] at e1
    | some b =>
      simp only [Bus.exec, hx, Option.some.injEq] at e1
      rw [← e1] at hm ⊢
      exact push_bus hx hm
  | _ :: _ :: _, h, _ => simp at h

/-- A message that is said comes into the queue at some moment. -/
theorem pushed (hp : ρ.Prompt) {n : Nat} {m : BMsg} (h0 : m ∉ (ρ.st 0).bus.published) (hm : m ∈ talk (ρ.st n).bus) :
    ∃ k, m ∉ (ρ.st k).bus.published ∧ (ρ.st (k + 1)).bus.published = (ρ.st k).bus.published ++ [m] ∧
      (ρ.st (k + 1)).bus.fates = (ρ.st k).bus.fates := by
  have : ∃ k, m ∈ (ρ.st k).bus.published := by
    rcases List.mem_append.1 hm with hm | hm
    · obtain ⟨k, i, _, h1, h2⟩ := hp.1 n m hm
      refine ⟨k + 1, ?_⟩
      have := ρ.ok k
      rw [h2] at this
      simp only [step] at this
      split at this
      · obtain ⟨b, hb, e⟩ := lift_inv this
        simp only [Bus.step, h1, Option.some.injEq] at hb
        rw [e, ← hb]
        simp
      · cases this
    · exact ⟨n, hm⟩
  obtain ⟨k, hk⟩ := this
  induction k with
  | zero => exact absurd hk h0
  | succ k ih =>
    by_cases h : m ∈ (ρ.st k).bus.published
    · exact ih h
    · rcases push_published (ρ.ok k) hk with h' | h'
      · exact absurd h' h
      · exact ⟨k, h, h'⟩

/-- What is said reaches a subscriber that stays. -/
theorem heard (h : Reachable (ρ.st 0)) (hf : ρ.Fair) (hp : ρ.Prompt) {T : Nat} (hT : ρ.NoNewBuses T)
    (ht : ∀ n, ρ.act n ≠ .run .throwing) (ho : (ρ.st 0).bus.phase ≠ .off) {s : Nat} (hns : ∀ n, s < (ρ.st n).bus.w.ns)
    (hl : ∀ n, Bus.Live (ρ.st n).bus.w s) {n : Nat} {m : BMsg} (h0 : m ∉ (ρ.st 0).bus.published) (hm : m ∈ talk (ρ.st n).bus)
    (htop : ∀ n, Bus.TopicRule ((ρ.st n).bus.w.sub s).topic m.topic) :
    ∃ k, ∃ d ∈ (ρ.st k).bus.log, d.sub = s ∧ d.msg = m ∧ d ∉ (ρ.st 0).bus.log := by
  obtain ⟨β, b1, b2, b3, b4⟩ := Endless.bus hns
  have hr0 : Bus.Reachable (β.st 0) := by rw [b1]; exact h.bus
  obtain ⟨k, hk1, hk2, hk3⟩ := pushed hp h0 hm
  have hrun : ∀ m, 0 ≤ m → ((β.st m).w.bus 0).running = true := fun m _ => by
    rw [b1]; exact Bus.RunPath.above (Endless.reach h m).bus.inv.wok (hl m).2.2 (Bus.RunPath.anc (hl m).2.2)
  have hno : β.NoThrow := fun n e => ht n (b3 n e)
  have hfr : β.Fair := fun n => by
    obtain ⟨m, hm, c, hc⟩ := hf n
    exact ⟨m, hm, c, b2 m c hc⟩
  have hnb : β.NoNewBuses T := fun n hn b name e => hT n hn b name (b4 n b name e)
  obtain ⟨j, hj, hrec⟩ := Bus.C128_delivered β s (k + 1) (ρ.st k).bus.published.length T m hr0 hfr hno hnb
    (by rw [b1]; exact hns _) (fun i _ => by rw [b1]; exact hl i)
    (Bus.Endless.on hr0 hno (Nat.zero_le _) hrun (by rw [b1]; exact ho))
    (by rw [b1, hk3]; exact (Endless.reach h k).bus.inv.len)
    (by rw [b1, hk2]; simp) (by rw [b1]; exact htop _)
  rw [b1] at hrec
  obtain ⟨d, hd, e⟩ := List.mem_map.1 hrec
  obtain ⟨hd, e'⟩ := List.mem_filter.1 hd
  have c1 := (Bus.C30_no_spurious_delivery _ (Endless.reach h j).bus d hd).2.1
  have hpre := Endless.published (ρ := ρ) hj
  have hget : (ρ.st j).bus.published[(ρ.st k).bus.published.length]? = some m := by
    obtain ⟨l, hl⟩ := hpre
    rw [← hl, hk2]; simp
  rw [e, hget, Option.some.injEq] at c1
  refine ⟨j, d, hd, by simpa using e', c1.symm, fun hd' => ?_⟩
  have c2 := (Bus.C30_no_spurious_delivery _ h.bus d hd').2.1
  rw [← c1] at c2
  exact h0 (List.mem_of_getElem? c2)

end Endless

/-- Once a response has reached the consumer, its request is answered, with what the provider computed. -/
theorem course_answers {topic id : Str} {c p : Nat} {t : Tree} {f : Tree → Tree} {σ : St} (h : Reachable σ) (hd : Distinct σ)
    (hc : Course topic id c p t f σ) {a : Asked} (ha : a ∈ σ.asked) (a1 : a.cons = c) (a2 : a.id = id) (ht : (c, id) ∉ σ.threw)
    {x : Cons} (hx : σ.cons[c]? = some x) (ex : x.topic = topic) {e : Delivery} (he : e ∈ σ.bus.log.drop a.seen)
    (e1 : e.sub = x.sub) (e2 : idOf e.msg.dg = some id) :
    answers c id σ.evs = [.answered c id a.cb (f (envelope (bs "request") id t))] := by
  subst a1 a2
  obtain ⟨z, hz, hz'⟩ := C45_first_response_once σ h hd a ha ht
  rw [hx] at hz; cases hz
  rw [hz']
  have hmem : e ∈ responses x.sub a.id (σ.bus.log.drop a.seen) := by
    simp only [responses, List.mem_filter, Bool.and_eq_true, beq_iff_eq]
    exact ⟨he, e1, e2⟩
  obtain ⟨d₀, rest, hrs⟩ := List.exists_cons_of_ne_nil (List.ne_nil_of_mem hmem)
  rw [hrs]
  have h0 : d₀ ∈ responses x.sub a.id (σ.bus.log.drop a.seen) := by rw [hrs]; exact List.mem_cons_self
  simp only [responses, List.mem_filter, Bool.and_eq_true, beq_iff_eq] at h0
  obtain ⟨h01, h02, h03⟩ := h0
  obtain ⟨-, q1, q2, -⟩ := Bus.C30_no_spurious_delivery σ.bus h.bus d₀ (List.mem_of_mem_drop h01)
  rw [h02, (h.own.cons _ _ hx).subTopic, response_rule, ex] at q2
  have := (hc.said d₀.msg (List.mem_append_right _ (List.mem_of_getElem? q1)) h03).2 q2
  simp [this]

namespace Endless
variable {ρ : Endless} {c p : Nat} {id : Str} {t : Tree} {f : Tree → Tree} {x : Cons} {y : Prov}

/-- Request `id` is under way from the beginning. -/
structure Way (ρ : Endless) (c p : Nat) (id : Str) (t : Tree) (f : Tree → Tree) (x : Cons) (y : Prov) : Prop where
  reach : Reachable (ρ.st 0)
  course : Course y.topic id c p t f (ρ.st 0)
  cons : (ρ.st 0).cons[c]? = some x
  prov : (ρ.st 0).provs[p]? = some y
  topic : x.topic = y.topic
  on : (ρ.st 0).bus.phase ≠ .off
  new : ∀ m ∈ talk (ρ.st 0).bus, idOf m.dg ≠ some id
  live : ∀ m, Bus.Live (ρ.st m).bus.w x.sub ∧ Bus.Live (ρ.st m).bus.w y.sub
  attached : ∀ m, Attached x.pub (ρ.st m).bus ∧ Attached y.pub (ρ.st m).bus
  honest : ∀ m, Honest y.topic id p (ρ.st m) (ρ.act m)
  obey : ∀ m, Obedient p f (ρ.st m) (ρ.act m)

namespace Way
variable (W : Way ρ c p id t f x y)
include W

theorem consN (n : Nat) : ∃ z, (ρ.st n).cons[c]? = some z ∧ z.topic = x.topic ∧ z.sub = x.sub ∧ z.pub = x.pub :=
  (Endless.mono (Nat.zero_le n)).cons c x W.cons

theorem provN (n : Nat) : ∃ z, (ρ.st n).provs[p]? = some z ∧ z.topic = y.topic ∧ z.sub = y.sub ∧ z.pub = y.pub :=
  (Endless.mono (Nat.zero_le n)).provs p y W.prov

theorem courseN (n : Nat) : Course y.topic id c p t f (ρ.st n) := by
  induction n with
  | zero => exact W.course
  | succ n ih =>
    obtain ⟨x', hx', e1, e2, e3⟩ := W.consN n
    obtain ⟨y', hy', f1, f2, f3⟩ := W.provN n
    exact course_step (Endless.reach W.reach n) ih hx' (e1.trans W.topic) (by rw [e3]; exact (W.attached n).1) hy' f1
      (by rw [f3]; exact (W.attached n).2) (W.honest n) (W.obey n) (ρ.ok n)

theorem calm (n : Nat) : ρ.act n ≠ .run .throwing := fun e => by
  have := W.honest n
  rw [e] at this; exact this

theorem threw (h0 : (c, id) ∉ (ρ.st 0).threw) (n : Nat) : (c, id) ∉ (ρ.st n).threw := by
  induction n with
  | zero => exact h0
  | succ n ih =>
    have : exec (ρ.st n) [ρ.act n] = .to (ρ.st (n + 1)) := by simp only [exec, ρ.ok n]
    rw [threw_same (by simpa using (W.calm n).symm) this]
    exact ih

/-- The request is shown to the provider. -/
theorem shown (hf : ρ.Fair) (hp : ρ.Prompt) {T : Nat} (hT : ρ.NoNewBuses T) :
    ∃ n k, Ev.requested p k id (envelope (bs "request") id t) ∈ (ρ.st n).evs := by
  have hsent : ∃ n, ∃ m ∈ talk (ρ.st n).bus, m.topic = requestTopic y.topic ∧ m.dg = envelope (bs "request") id t := by
    rcases W.course.sent with ⟨q, hq, q1, q2, q3⟩ | h
    · obtain ⟨k, i, _, h1, h2⟩ := hp.2 0 q hq
      obtain ⟨x', hx', e1, e2, e3⟩ := W.consN k
      have hs := ρ.ok k
      rw [h2] at hs
      simp only [step, h1, q1, hx', q2, q3] at hs
      obtain ⟨b, hb, e⟩ := lift_inv hs
      have hk := (Endless.reach W.reach k).own.cons _ _ hx'
      obtain ⟨m, hm, m1, m2⟩ := (talk_bus hb).2.2.2 _ _ rfl hk.active (by rw [e3]; exact (W.attached k).1)
      exact ⟨k + 1, m, by rw [e]; exact hm, by rw [m1, hk.pubTopic, e1, W.topic], m2⟩
    · exact ⟨0, h⟩
  obtain ⟨n, m, hm, m1, m2⟩ := hsent
  have hid : idOf m.dg = some id := by rw [m2]; rfl
  have hown : ∀ n, y.sub < (ρ.st n).bus.w.ns ∧ ((ρ.st n).bus.w.sub y.sub).topic = requestTopic y.topic := by
    intro n
    obtain ⟨y', hy', f1, f2, f3⟩ := W.provN n
    have := (Endless.reach W.reach n).own.provs _ _ hy'
    exact ⟨f2 ▸ this.sub, by rw [← f2, this.subTopic, f1]⟩
  obtain ⟨k, d, hd, d1, d2, -⟩ := heard W.reach hf hp hT W.calm W.on (s := y.sub) (fun n => (hown n).1) (fun n => (W.live n).2)
    (fun h => W.new m (List.mem_append_right _ h) hid) hm (fun n => by rw [(hown n).2, m1]; exact .inl rfl)
  obtain ⟨y', hy', f1, f2, f3⟩ := W.provN k
  obtain ⟨j, hj⟩ := ((W.courseN k).shown y' hy').2 d hd (d1.trans f2.symm) (by rw [d2]; exact hid)
  rw [d2, m2] at hj
  exact ⟨k, j, hj⟩

/-- The request is answered. -/
theorem answered (hf : ρ.Fair) (hp : ρ.Prompt) {T : Nat} (hT : ρ.NoNewBuses T) (hd : ∀ n, Distinct (ρ.st n)) {a : Asked}
    (ha : a ∈ (ρ.st 0).asked) (a1 : a.cons = c) (a2 : a.id = id) (a3 : a.seen = (ρ.st 0).bus.log.length)
    (ht : (c, id) ∉ (ρ.st 0).threw) (hans : ∀ m k t, Ev.requested p k id t ∈ (ρ.st m).evs → ∃ m', (p, id, f t) ∈ (ρ.st m').replied) :
    ∃ n, ∀ m, n ≤ m → Action.answers c id (ρ.st m).evs = [.answered c id a.cb (f (envelope (bs "request") id t))] := by
  obtain ⟨n, k, hk⟩ := W.shown hf hp hT
  obtain ⟨n', hn'⟩ := hans n k _ hk
  obtain ⟨m, hm, m1, m2⟩ := (W.courseN n').told _ hn'
  have hid : idOf m.dg = some id := by rw [m2]; rfl
  have hown : ∀ n, x.sub < (ρ.st n).bus.w.ns ∧ ((ρ.st n).bus.w.sub x.sub).topic = responseTopic y.topic := by
    intro n
    obtain ⟨x', hx', f1, f2, f3⟩ := W.consN n
    have := (Endless.reach W.reach n).own.cons _ _ hx'
    exact ⟨f2 ▸ this.sub, by rw [← f2, this.subTopic, f1, W.topic]⟩
  obtain ⟨k, d, hdm, d1, d2, d3⟩ := heard W.reach hf hp hT W.calm W.on (s := x.sub) (fun n => (hown n).1) (fun n => (W.live n).1)
    (fun h => W.new m (List.mem_append_right _ h) hid) hm (fun n => by rw [(hown n).2, m1]; exact .inl rfl)
  refine ⟨k, fun j hj => ?_⟩
  obtain ⟨x', hx', f1, f2, f3⟩ := W.consN j
  have mj := Endless.mono (ρ := ρ) hj
  have m0 := Endless.mono (ρ := ρ) (Nat.zero_le j)
  refine course_answers (Endless.reach W.reach j) (hd j) (W.courseN j) (m0.asked.subset ha) a1 a2 (W.threw ht j) hx'
    (f1.trans W.topic) (e := d) ?_ (d1.trans f2.symm) (by rw [d2]; exact hid)
  have hj' := mj.log.subset hdm
  obtain ⟨l, hl⟩ := m0.log
  rw [a3, ← hl, List.drop_left]
  rw [← hl] at hj'
  rcases List.mem_append.1 hj' with h' | h'
  · exact absurd h' d3
  · exact h'

end Way

theorem Fair.tail (h : ρ.Fair) (n : Nat) : (ρ.tail n).Fair := fun k => by
  obtain ⟨m, hm, c, hc⟩ := h (n + k)
  exact ⟨m - n, by omega, c, by simp only [Endless.tail]; rwa [show n + (m - n) = m by omega]⟩

theorem Prompt.tail (h : ρ.Prompt) (n : Nat) : (ρ.tail n).Prompt := by
  constructor
  · intro k m hm
    obtain ⟨j, i, h1, h2, h3⟩ := h.1 (n + k) m hm
    refine ⟨j - n, i, by omega, ?_⟩
    simp only [Endless.tail]
    rw [show n + (j - n) = j by omega]
    exact ⟨h2, h3⟩
  · intro k m hm
    obtain ⟨j, i, h1, h2, h3⟩ := h.2 (n + k) m hm
    refine ⟨j - n, i, by omega, ?_⟩
    simp only [Endless.tail]
    rw [show n + (j - n) = j by omega]
    exact ⟨h2, h3⟩

theorem NoNewBuses.tail {T : Nat} (h : ρ.NoNewBuses T) (n : Nat) : (ρ.tail n).NoNewBuses T :=
  fun k hk b name => h (n + k) (by omega) b name

theorem Awake.tail {N : Nat} (h : ρ.Awake N) (n : Nat) : (ρ.tail n).Awake N := fun k => by
  obtain ⟨m, hm, hc⟩ := h (n + k)
  refine ⟨m - n, by omega, ?_⟩
  simp only [Endless.tail]
  rw [show n + (m - n) = m by omega]
  exact hc

theorem Answers.tail {n : Nat} (h : ρ.Answers n p id f) : ∀ m k t, Ev.requested p k id t ∈ ((ρ.tail (n + 1)).st m).evs →
    ∃ m', (p, id, f t) ∈ ((ρ.tail (n + 1)).st m').replied := by
  intro m k t ht
  obtain ⟨m', h1, h2⟩ := h (n + 1 + m) (by omega) k t ht
  refine ⟨m' - (n + 1), ?_⟩
  simp only [Endless.tail]
  rwa [show n + 1 + (m' - (n + 1)) = m' by omega]

/-- A registration begins the course. -/
theorem way_start {n : Nat} {cb : Cb} {fr : Option Nat} (h : Reachable (ρ.st 0)) (hx : (ρ.st n).cons[c]? = some x)
    (hy : (ρ.st n).provs[p]? = some y) (ht : x.topic = y.topic) (hcb : y.cb ≠ none) (hfresh : Fresh (ρ.st n) id)
    (hon : (ρ.st n).bus.phase ≠ .off) (hs : ρ.Served n x y p id f) (e1 : (ρ.st (n + 1)).bus = (ρ.st n).bus)
    (e2 : (ρ.st (n + 1)).pending = (ρ.st n).pending ++ [⟨c, id, t, fr⟩]) (e3 : (ρ.st (n + 1)).provs = (ρ.st n).provs)
    (e4 : (ρ.st (n + 1)).replied = (ρ.st n).replied) (e5 : (ρ.st (n + 1)).threw = (ρ.st n).threw)
    (e6 : (ρ.st (n + 1)).asked = (ρ.st n).asked ++ [⟨c, id, cb, t, (ρ.st n).bus.log.length⟩]) :
    (∃ x', Way (ρ.tail (n + 1)) c p id t f x' y) ∧
      (⟨c, id, cb, t, ((ρ.tail (n + 1)).st 0).bus.log.length⟩ : Asked) ∈ ((ρ.tail (n + 1)).st 0).asked ∧
      (c, id) ∉ ((ρ.tail (n + 1)).st 0).threw := by
  have hr := Endless.reach h n
  have hr' := Endless.reach h (n + 1)
  obtain ⟨x', hx', x1, x2, x3⟩ := (mono_step (ρ.ok n)).cons c x hx
  refine ⟨⟨x', ?_⟩, ?_, ?_⟩
  · refine ⟨hr', ⟨?_, ?_, ?_, ?_, ?_⟩, hx', ?_, x1.trans ht, ?_, ?_, ?_, ?_, ?_, ?_⟩
    · intro m hm hid
      simp only [Endless.tail, Nat.add_zero] at hm
      rw [e1] at hm
      exact absurd hid (hfresh.1 m hm)
    · intro q hq hid
      simp only [Endless.tail, Nat.add_zero] at hq
      rw [e2] at hq
      rcases List.mem_append.1 hq with hq | hq
      · obtain ⟨a, ha, -, a2, -⟩ := hr.pendAsked q hq
        exact absurd (a2.trans hid) (hfresh.2.1 a ha)
      · simp only [List.mem_singleton] at hq; subst hq; exact ⟨rfl, rfl⟩
    · left
      simp only [Endless.tail, Nat.add_zero]
      rw [e2]; exact ⟨⟨c, id, t, fr⟩, by simp, rfl, rfl, rfl⟩
    · intro y' hy'
      simp only [Endless.tail, Nat.add_zero] at hy' ⊢
      rw [e3, hy] at hy'; cases hy'
      refine ⟨hcb, fun d hd _ hid => ?_⟩
      rw [e1] at hd
      exact absurd hid (hfresh.1 _ (List.mem_append_right _ (List.mem_of_getElem? (Bus.C30_no_spurious_delivery _ hr.bus d hd).2.1)))
    · intro u hu
      simp only [Endless.tail, Nat.add_zero] at hu
      rw [e4] at hu
      exact absurd rfl (hfresh.2.2 _ hu)
    · simp only [Endless.tail, Nat.add_zero]; rw [e3]; exact hy
    · simp only [Endless.tail, Nat.add_zero]; rw [e1]; exact hon
    · intro m hm
      simp only [Endless.tail, Nat.add_zero] at hm
      rw [e1] at hm
      exact hfresh.1 m hm
    · intro m; rw [x2]; exact hs.live (n + 1 + m) (by omega)
    · intro m; rw [x3]; exact hs.attached (n + 1 + m) (by omega)
    · intro m; exact hs.honest (n + 1 + m) (by omega)
    · intro m; exact hs.obey (n + 1 + m) (by omega)
  · simp only [Endless.tail, Nat.add_zero]; rw [e6, e1]; simp
  · simp only [Endless.tail, Nat.add_zero]; rw [e5]
    intro hm
    obtain ⟨_, a, ha, -, a2, -⟩ := hr.hist.threw c id hm
    exact hfresh.2.1 a ha a2

theorem way_request {n k : Nat} (h : Reachable (ρ.st 0)) (ha : ρ.act n = .request c id k t) (hx : (ρ.st n).cons[c]? = some x)
    (hy : (ρ.st n).provs[p]? = some y) (ht : x.topic = y.topic) (hcb : y.cb ≠ none) (hfresh : Fresh (ρ.st n) id)
    (hon : (ρ.st n).bus.phase ≠ .off) (hs : ρ.Served n x y p id f) :
    ∃ x', Way (ρ.tail (n + 1)) c p id t f x' y ∧
      (⟨c, id, .user k, t, ((ρ.tail (n + 1)).st 0).bus.log.length⟩ : Asked) ∈ ((ρ.tail (n + 1)).st 0).asked ∧
      (c, id) ∉ ((ρ.tail (n + 1)).st 0).threw := by
  have hst := ρ.ok n
  rw [ha] at hst
  simp only [step, hx, Next.to.injEq] at hst
  obtain ⟨⟨x', W⟩, h2⟩ := way_start (cb := .user k) (fr := none) h hx hy ht hcb hfresh hon hs (by rw [← hst]; rfl) (by rw [← hst]; rfl)
    (by rw [← hst]; rfl) (by rw [← hst]; rfl) (by rw [← hst]; rfl) (by rw [← hst]; rfl)
  exact ⟨x', W, h2⟩

theorem way_begin {n : Nat} (h : Reachable (ρ.st 0)) (ha : ρ.act n = .begin c id t false) (hx : (ρ.st n).cons[c]? = some x)
    (hy : (ρ.st n).provs[p]? = some y) (ht : x.topic = y.topic) (hcb : y.cb ≠ none) (hfresh : Fresh (ρ.st n) id)
    (hon : (ρ.st n).bus.phase ≠ .off) (hs : ρ.Served n x y p id f) :
    ∃ x', Way (ρ.tail (n + 1)) c p id t f x' y ∧
      (⟨c, id, .frame (ρ.st n).frames.length, t, ((ρ.tail (n + 1)).st 0).bus.log.length⟩ : Asked) ∈ ((ρ.tail (n + 1)).st 0).asked ∧
      (c, id) ∉ ((ρ.tail (n + 1)).st 0).threw ∧
      ∃ g, ((ρ.tail (n + 1)).st 0).frames[(ρ.st n).frames.length]? = some g ∧ g.cons = c ∧ g.id = id := by
  have hst := ρ.ok n
  rw [ha] at hst
  simp only [step, hx, Bool.false_eq_true, false_and, if_false, Next.to.injEq] at hst
  obtain ⟨⟨x', W⟩, h2, h3⟩ := way_start (cb := .frame (ρ.st n).frames.length) (fr := some (ρ.st n).frames.length) h hx hy ht hcb hfresh hon hs
    (by rw [← hst]; rfl) (by rw [← hst]; rfl) (by rw [← hst]; rfl) (by rw [← hst]; rfl) (by rw [← hst]; rfl) (by rw [← hst]; rfl)
  refine ⟨x', W, h2, h3, ⟨c, id, .sending, true, .empty, none⟩, ?_, rfl, rfl⟩
  simp only [Endless.tail, Nat.add_zero]
  rw [← hst]; simp

end Endless

/-! ## Blocking calls -/

/-- How far a call of `Request` is from its end. -/
def far : Wait → Nat
  | .done => 0
  | .check => 1
  | .asleep => 2
  | .drowsy => 3
  | .sending => 4

/-- A call that has been told gets closer to its end. -/
theorem far_step {σ σ' : St} {a : Act} (hk : Calls σ) (hs : step σ a = .to σ') {n : Nat} {g : Frame} (hg : σ.frames[n]? = some g)
    (hw : g.waiting = false) : ∃ g', σ'.frames[n]? = some g' ∧ g'.waiting = false ∧ far g'.pc ≤ far g.pc ∧
      ((a = .wait n ∨ a = .timeout n) → far g'.pc < far g.pc) := by
  have same : ∀ {τ : St}, τ.frames = σ.frames → (a ≠ .wait n ∧ a ≠ .timeout n) → ∃ g', τ.frames[n]? = some g' ∧ g'.waiting = false ∧
      far g'.pc ≤ far g.pc ∧ ((a = .wait n ∨ a = .timeout n) → far g'.pc < far g.pc) :=
    fun e hn => ⟨g, by rw [e]; exact hg, hw, Nat.le_refl _, fun h => by rcases h with h | h <;> simp [h] at hn⟩
  have upd : ∀ {τ : St} {m : Nat} {u u' : Frame}, σ.frames[m]? = some u → τ.frames = σ.frames.set m u' →
      (u.waiting = false → u'.waiting = false) → far u'.pc ≤ far u.pc → ((a = .wait n ∨ a = .timeout n) → m = n) →
      ((a = .wait n ∨ a = .timeout n) → u.waiting = false → far u'.pc < far u.pc) →
      ∃ g', τ.frames[n]? = some g' ∧ g'.waiting = false ∧
      far g'.pc ≤ far g.pc ∧ ((a = .wait n ∨ a = .timeout n) → far g'.pc < far g.pc) := by
    intro τ m u u' hu e h1 h2 h3 h4
    refine ⟨_, by rw [e]; exact set_getElem? hg, ?_⟩
    split
    · rename_i e'; subst e'
      rw [hu] at hg; cases hg
      exact ⟨h1 hw, h2, fun h => h4 h hw⟩
    · rename_i e'
      exact ⟨hw, Nat.le_refl _, fun h => absurd (h3 h) (by omega)⟩
  cases step_eff hs with
  | endCb c b => exact same (endCb_same σ b c).2.2.2.1 (by simp)
  | deliver c b d => exact same (dispatch_same _ d).2.2.2.2.1 (by simp)
  | test c id m t u h1 h2 h3 => exact same rfl (by simp)
  | store c id m t u h1 h2 h3 => exact upd h2 rfl (fun h => h) (Nat.le_refl _) (by simp) (by simp)
  | flag c id m t u h1 h2 h3 => exact upd h2 rfl (fun h => rfl) (Nat.le_refl _) (by simp) (by simp)
  | wake c id m t u h1 h2 h3 =>
    refine upd h2 rfl (fun h => h) ?_ (by simp) (by simp)
    simp only
    split
    · rename_i e; rw [e]; decide
    · exact Nat.le_refl _
  | begin c id t onBus x hx ho =>
    exact ⟨g, getElem?_append_old hg, hw, Nat.le_refl _, fun h => by simp at h⟩
  | send i q x b h1 h2 h3 =>
    cases hq : q.frame with
    | none => exact same rfl (by simp)
    | some m =>
      obtain ⟨u, hu, u1, -⟩ := hk.pend q (List.mem_of_getElem? h1) m hq
      refine ⟨_, modify_getElem? hg, ?_⟩
      split
      · rename_i e; subst e
        rw [hu] at hg; cases hg
        exact ⟨hw, by rw [u1]; simp [far], fun h => by simp at h⟩
      · exact ⟨hw, Nat.le_refl _, fun h => by simp at h⟩
  | look m u h1 h2 h3 =>
    by_cases e : m = n
    · subst e; rw [h1] at hg; cases hg; rw [h3] at hw; cases hw
    · refine ⟨g, by simp only; rw [set_getElem? hg, if_neg (by omega)], hw, Nat.le_refl _, fun h => ?_⟩
      simp at h; exact absurd h e
  | leave m u h1 h2 h3 => exact upd h1 rfl (fun h => h) (by rw [h2]; simp [far, finish]) (by simp) (fun _ _ => by rw [h2]; simp [far, finish])
  | sleep m u h1 h2 => exact upd h1 rfl (fun h => h) (by rw [h2]; simp [far]) (by simp) (fun _ _ => by rw [h2]; simp [far])
  | spurious m u h1 h2 => exact upd h1 rfl (fun h => h) (by rw [h2]; simp [far]) (by simp) (fun _ _ => by rw [h2]; simp [far])
  | timeout m u h1 h2 => exact upd h1 rfl (fun h => h) (by rw [h2]; simp [far, finish]) (by simp) (fun _ _ => by rw [h2]; simp [far, finish])
  | _ => exact same rfl (by simp)

/-- When the bus thread goes on after an answer, the waiting thread has been told. -/
theorem told_by_run {σ σ' : St} {ch : Bus.Choice} (hi : Hist σ) (hs : step σ (.run ch) = .to σ') {c : Nat} {id : Str}
    (ha : answers c id σ.evs ≠ []) : signalled σ c id = true := by
  have hst : stageOf c id σ.cur = none ∨ stageOf c id σ.cur = some .over := by
    obtain ⟨-, b, -, h | h | h⟩ := run_cases hs
    · have h := h.2.2.2.1
      cases hc : σ.cur with
      | answering c' id' cb t st =>
        rw [hc] at h
        simp only [stageOf]
        split
        · right
          cases cb <;> cases st <;> cases ch <;> simp [mayEnd] at h ⊢
        · exact .inl rfl
      | _ => exact .inl rfl
    · left; rw [hi.idle.2 h.1]; rfl
    · left; rw [hi.idle.2 h.1]; rfl
  obtain ⟨e, l, hl⟩ := List.exists_cons_of_ne_nil ha
  rcases hst with h | h <;> simp [signalled, stored, h, hl]

namespace Endless
variable {ρ : Endless} {c p : Nat} {id : Str} {t : Tree} {f : Tree → Tree} {x : Cons} {y : Prov}

/-- A call that has been told ends. -/
theorem ends (h : Reachable (ρ.st 0)) {N : Nat} (hw : ρ.Awake N) {n : Nat} {g : Frame} (hg : (ρ.st n).frames[N]? = some g)
    (hgw : g.waiting = false) : ∃ m, n ≤ m ∧ ∃ g', (ρ.st m).frames[N]? = some g' ∧ g'.pc = .done := by
  have keep : ∀ {n : Nat} {g : Frame}, (ρ.st n).frames[N]? = some g → g.waiting = false → ∀ {m}, n ≤ m →
      ∃ g', (ρ.st m).frames[N]? = some g' ∧ g'.waiting = false ∧ far g'.pc ≤ far g.pc := by
    intro n g hg hgw m hm
    induction hm with
    | refl => exact ⟨g, hg, hgw, Nat.le_refl _⟩
    | step _ ih =>
      obtain ⟨g', e1, e2, e3⟩ := ih
      obtain ⟨g'', f1, f2, f3, -⟩ := far_step (Endless.reach h _).calls (ρ.ok _) e1 e2
      exact ⟨g'', f1, f2, by omega⟩
  generalize hk : far g.pc = k
  induction k using Nat.strongRecOn generalizing n g with
  | ind k ih =>
    obtain ⟨m, hm, ha⟩ := hw n
    obtain ⟨g', e1, e2, e3⟩ := keep hg hgw hm
    rcases ha (by have := List.getElem?_eq_some_iff.1 hg; exact this.1) with ha | ha | ⟨u, hu, hd⟩
    · obtain ⟨g'', f1, f2, -, f4⟩ := far_step (Endless.reach h _).calls (ρ.ok m) e1 e2
      have := f4 (.inl ha)
      obtain ⟨m', hm', r⟩ := ih (far g''.pc) (by omega) f1 f2 rfl
      exact ⟨m', by omega, r⟩
    · obtain ⟨g'', f1, f2, -, f4⟩ := far_step (Endless.reach h _).calls (ρ.ok m) e1 e2
      have := f4 (.inr ha)
      obtain ⟨m', hm', r⟩ := ih (far g''.pc) (by omega) f1 f2 rfl
      exact ⟨m', by omega, r⟩
    · exact ⟨m, hm, u, hu, hd⟩

/-- A blocking call whose request is answered returns the answer. -/
theorem returned (h : Reachable (ρ.st 0)) (hf : ρ.Fair) (hd : ∀ n, Distinct (ρ.st n)) {N : Nat} {g : Frame}
    (hg : (ρ.st 0).frames[N]? = some g) (g1 : g.cons = c) (g2 : g.id = id) (hw : ρ.Awake N) {cb : Cb} {r : Tree} {n : Nat}
    (hn : ∀ m, n ≤ m → Action.answers c id (ρ.st m).evs = [.answered c id cb r]) :
    ∃ m, ∀ m', m ≤ m' → ∃ g, (ρ.st m').frames[N]? = some g ∧ g.cons = c ∧ g.id = id ∧ g.pc = .done ∧ g.result = some r := by
  obtain ⟨m, hm, ch, hch⟩ := hf n
  have hr := fun k => Endless.reach h k
  have fr : ∀ k, ∃ g', (ρ.st k).frames[N]? = some g' ∧ g'.cons = c ∧ g'.id = id := fun k => by
    obtain ⟨g', e1, e2, e3⟩ := (Endless.mono (ρ := ρ) (Nat.zero_le k)).frames N g hg
    exact ⟨g', e1, e2.trans g1, e3.trans g2⟩
  have hsig : signalled (ρ.st m) c id = true := by
    have := ρ.ok m
    rw [hch] at this
    exact told_by_run (hr m).hist this (by rw [hn m hm]; simp)
  obtain ⟨u, hu, u1, u2⟩ := fr m
  have huw : u.waiting = false := by
    have := ((hr m).content (hd m) N u hu).2
    rw [u1, u2, hsig] at this; exact this
  obtain ⟨k, hk, v, hv, hvd⟩ := ends h hw hu huw
  refine ⟨k, fun j hj => ?_⟩
  have stay : (ρ.st j).frames[N]? = some v := by
    induction hj with
    | refl => exact hv
    | step _ ih =>
      obtain ⟨v', e1, e | ⟨e, _⟩ | ⟨e, _⟩⟩ := frame_step (hr _).calls (ρ.ok _) ih
      · rw [← e]; exact e1
      · exact absurd hvd e
      · exact absurd hvd e
  obtain ⟨w, hw1, w1, w2⟩ := fr j
  rw [stay] at hw1; cases hw1
  refine ⟨v, stay, w1, w2, hvd, ?_⟩
  have hvw : v.waiting = false := by
    have : ∀ {i}, m ≤ i → ∃ g', (ρ.st i).frames[N]? = some g' ∧ g'.waiting = false := by
      intro i hi
      induction hi with
      | refl => exact ⟨u, hu, huw⟩
      | step _ ih =>
        obtain ⟨g', e1, e2⟩ := ih
        obtain ⟨g'', f1, f2, -⟩ := far_step (hr _).calls (ρ.ok _) e1 e2
        exact ⟨g'', f1, f2⟩
    obtain ⟨g', e1, e2⟩ := this (Nat.le_trans hk hj)
    rw [stay] at e1; cases e1; exact e2
  obtain ⟨c1, c2⟩ := (hr j).content (hd j) N v stay
  rw [(hr j).calls.result N v stay, if_pos hvd, c1]
  rw [hvw, w1, w2] at c2
  obtain ⟨z, hz⟩ := signalled_stored (σ := ρ.st j) (c := c) (id := id) (by simpa using c2.symm)
  rw [w1, w2, hz]
  unfold stored at hz
  rw [hn j (by omega)] at hz
  simp only [List.head?_cons, Ev.content] at hz
  split at hz
  · cases hz
  · cases hz
  · simpa using hz.symm

/-- A blocking call returns the answer. -/
theorem Way.returned (W : Way ρ c p id t f x y) (hf : ρ.Fair) (hp : ρ.Prompt) {T : Nat} (hT : ρ.NoNewBuses T)
    (hd : ∀ n, Distinct (ρ.st n)) {a : Asked} (ha : a ∈ (ρ.st 0).asked) (a1 : a.cons = c) (a2 : a.id = id)
    (a3 : a.seen = (ρ.st 0).bus.log.length) (ht : (c, id) ∉ (ρ.st 0).threw) {N : Nat} {g : Frame} (hg : (ρ.st 0).frames[N]? = some g)
    (g1 : g.cons = c) (g2 : g.id = id) (hw : ρ.Awake N)
    (hans : ∀ m k t, Ev.requested p k id t ∈ (ρ.st m).evs → ∃ m', (p, id, f t) ∈ (ρ.st m').replied) :
    ∃ m, ∀ m', m ≤ m' → ∃ g, (ρ.st m').frames[N]? = some g ∧ g.cons = c ∧ g.id = id ∧ g.pc = .done ∧
      g.result = some (f (envelope (bs "request") id t)) := by
  obtain ⟨n, hn⟩ := W.answered hf hp hT hd ha a1 a2 a3 ht hans
  exact Endless.returned W.reach hf hd hg g1 g2 hw hn

end Endless
end LP.Action
