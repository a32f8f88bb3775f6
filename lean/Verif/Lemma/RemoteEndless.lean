import Verif.Lemma.RemoteCourse
import Verif.Lemma.Answered
import Verif.Spec.RemoteEndless
/-!
# Requests to another host on executions without end
-/
namespace LP.Remote
open LP.Action (Next Bears requestTopic responseTopic idOf responseOf envelope talk Pending Cons Prov Ev Source Asked Frame Cb Distinct responses)
open LP.Bus (BMsg Delivery)

namespace Endless
variable {ends : Bool → End} {ρ : Endless ends}

/-- What happens on host `r` at an event: nothing is written as the reset of a provider that does not exist. -/
def view (ends : Bool → End) (r : Bool) (σ : St) : Act → Action.Act
  | .act s a => if s = r then a else .resetProvider (σ.host r).provs.length
  | .receive s i => if s = r then
      match (σ.way s)[i]? with
      | some m => .bus (.publish (ends s).bus (Net.arrive (hop ends s) m))
      | none => .resetProvider (σ.host r).provs.length
    else .resetProvider (σ.host r).provs.length

theorem nothing (τ : Action.St) : Action.step τ (.resetProvider τ.provs.length) = .to τ := by
  simp only [Action.step]
  rw [List.modify_eq_self (Nat.le_refl _)]

theorem view_step {r : Bool} {σ σ' : St} {a : Act} (h : step ends σ a = .to σ') :
    Action.step (σ.host r) (view ends r σ a) = .to (σ'.host r) := by
  cases a with
  | act s x =>
    obtain ⟨g1, g2, -⟩ := step_act h
    by_cases e : s = r
    · subst e; simp only [view, if_true]; exact g1
    · have : r = !s := other (fun h => e h.symm)
      subst this
      simp only [view, if_neg e]
      rw [g2]; exact nothing _
  | receive s i =>
    obtain ⟨m, hm, g1, g2, -⟩ := step_receive h
    by_cases e : s = r
    · subst e; simp only [view, if_true, hm]; exact g1
    · have : r = !s := other (fun h => e h.symm)
      subst this
      simp only [view, if_neg e]
      rw [g2]; exact nothing _

/-- What host `r` does meanwhile. -/
def host (ρ : Endless ends) (r : Bool) : Action.Endless :=
  ⟨fun n => (ρ.st n).host r, fun n => view ends r (ρ.st n) (ρ.act n), fun n => view_step (ρ.ok n)⟩

theorem host_act {r : Bool} {n : Nat} {a : Action.Act} (h : ρ.act n = .act r a) : (ρ.host r).act n = a := by
  simp only [host, h, view, if_true]

/-- The execution from moment `n` on. -/
def tail (ρ : Endless ends) (n : Nat) : Endless ends := ⟨fun k => ρ.st (n + k), fun k => ρ.act (n + k), fun k => ρ.ok (n + k)⟩

theorem Fair.host (h : ρ.Fair) (r : Bool) : (ρ.host r).Fair := fun n => by
  obtain ⟨m, hm, c, hc⟩ := h r n
  exact ⟨m, hm, c, host_act hc⟩

theorem Prompt.host (h : ρ.Prompt) (r : Bool) : (ρ.host r).Prompt := by
  refine ⟨fun n m hm => ?_, fun n q hq => ?_⟩
  · obtain ⟨k, i, h1, h2, h3⟩ := h.1 r n m hm
    exact ⟨k, i, h1, h2, host_act h3⟩
  · obtain ⟨k, i, h1, h2, h3⟩ := h.2.1 r n q hq
    exact ⟨k, i, h1, h2, host_act h3⟩

/-- An event of a host other than what a link publishes there is one of the execution. -/
theorem host_inv {r : Bool} {n : Nat} {a : Action.Act} (h : (ρ.host r).act n = a) (h1 : ∀ p, a ≠ .resetProvider p)
    (h2 : ∀ b m, a ≠ .bus (.publish b m)) : ρ.act n = .act r a := by
  simp only [host] at h
  cases ha : ρ.act n with
  | act s x =>
    rw [ha] at h
    simp only [view] at h
    split at h
    · rename_i e; subst e; rw [h]
    · exact absurd h.symm (h1 _)
  | receive s i =>
    rw [ha] at h
    simp only [view] at h
    split at h
    · split at h
      · exact absurd h.symm (h2 _ _)
      · exact absurd h.symm (h1 _)
    · exact absurd h.symm (h1 _)

theorem NoNewBuses.host {T : Nat} (h : ρ.NoNewBuses T) (r : Bool) : (ρ.host r).NoNewBuses T :=
  fun n hn b name e => h n hn r b name (host_inv e (fun _ h => by cases h) (fun _ _ h => by cases h))

theorem Awake.host {r : Bool} {N : Nat} (h : ρ.Awake r N) : (ρ.host r).Awake N := fun n => by
  obtain ⟨m, hm, hc⟩ := h n
  refine ⟨m, hm, fun hN => ?_⟩
  rcases hc hN with e | e | e
  · exact .inl (host_act e)
  · exact .inr (.inl (host_act e))
  · exact .inr (.inr e)

theorem Fair.tail (h : ρ.Fair) (n : Nat) : (ρ.tail n).Fair := fun r k => by
  obtain ⟨m, hm, c, hc⟩ := h r (n + k)
  exact ⟨m - n, by omega, c, by simp only [Endless.tail]; rwa [show n + (m - n) = m by omega]⟩

theorem Prompt.tail (h : ρ.Prompt) (n : Nat) : (ρ.tail n).Prompt := by
  refine ⟨fun r k m hm => ?_, fun r k m hm => ?_, fun r k m hm => ?_⟩
  · obtain ⟨j, i, h1, h2, h3⟩ := h.1 r (n + k) m hm
    refine ⟨j - n, i, by omega, ?_⟩
    simp only [Endless.tail]
    rw [show n + (j - n) = j by omega]
    exact ⟨h2, h3⟩
  · obtain ⟨j, i, h1, h2, h3⟩ := h.2.1 r (n + k) m hm
    refine ⟨j - n, i, by omega, ?_⟩
    simp only [Endless.tail]
    rw [show n + (j - n) = j by omega]
    exact ⟨h2, h3⟩
  · obtain ⟨j, i, h1, h2, h3⟩ := h.2.2 r (n + k) m hm
    refine ⟨j - n, i, by omega, ?_⟩
    simp only [Endless.tail]
    rw [show n + (j - n) = j by omega]
    exact ⟨h2, h3⟩

theorem NoNewBuses.tail {T : Nat} (h : ρ.NoNewBuses T) (n : Nat) : (ρ.tail n).NoNewBuses T :=
  fun k hk r b name => h (n + k) (by omega) r b name

theorem Awake.tail {r : Bool} {N : Nat} (h : ρ.Awake r N) (n : Nat) : (ρ.tail n).Awake r N := fun k => by
  obtain ⟨m, hm, hc⟩ := h (n + k)
  refine ⟨m - n, by omega, ?_⟩
  simp only [Endless.tail]
  rw [show n + (m - n) = m by omega]
  exact hc

variable {s : Bool} {c p : Nat} {id : Str} {t : Tree} {f : Tree → Tree} {x : Cons} {y : Prov}

theorem Answers.tail {n : Nat} {r : Bool} (h : ρ.Answers n r p id f) :
    ∀ m k t, Ev.requested p k id t ∈ (((ρ.tail (n + 1)).st m).host r).evs →
    ∃ m', (p, id, f t) ∈ (((ρ.tail (n + 1)).st m').host r).replied := by
  intro m k t ht
  obtain ⟨m', h1, h2⟩ := h (n + 1 + m) (by omega) k t ht
  refine ⟨m' - (n + 1), ?_⟩
  simp only [Endless.tail]
  rwa [show n + 1 + (m' - (n + 1)) = m' by omega]

theorem reach (h : ∀ r, Action.Reachable ((ρ.st 0).host r)) (n : Nat) (r : Bool) : Action.Reachable ((ρ.st n).host r) :=
  Action.Endless.reach (ρ := ρ.host r) (h r) n

/-- Subscribers stay known. -/
theorem stays {β : Action.Endless} (h : Action.Reachable (β.st 0)) {sub : Nat} (hs : sub < (β.st 0).bus.w.ns) (n : Nat) :
    sub < (β.st n).bus.w.ns := by
  induction n with
  | zero => exact hs
  | succ n ih =>
    obtain ⟨x, hx, -⟩ := Action.step_image (β.ok n) ih
    by_cases hr : ∃ c, x = .run c
    · obtain ⟨c, rfl⟩ := hr
      rw [(Bus.run_world hx).2.2.2.1]; exact ih
    · exact Nat.lt_of_lt_of_le ih (Bus.step_external (Action.Endless.reach h n).bus.inv.wok (fun c e => hr ⟨c, e⟩) hx).grows.2.1

/-- Request `id` of host `s` is under way from the beginning. -/
structure Way (ρ : Endless ends) (s : Bool) (c p : Nat) (id : Str) (t : Tree) (f : Tree → Tree) (x : Cons) (y : Prov) : Prop where
  reach : ∀ r, Action.Reachable ((ρ.st 0).host r)
  course : Course ends s y.topic id c p t f (ρ.st 0)
  cons : ((ρ.st 0).host s).cons[c]? = some x
  prov : ((ρ.st 0).host (!s)).provs[p]? = some y
  topic : x.topic = y.topic
  on : ∀ r, ((ρ.st 0).host r).bus.phase ≠ .off
  known : ∀ r, (ends r).sub < ((ρ.st 0).host r).bus.w.ns
  new : ∀ r, ∀ m ∈ talk ((ρ.st 0).host r).bus, idOf m.dg ≠ some id
  up : ∀ m r, Up (ends r) ((ρ.st m).host r)
  live : ∀ m, Bus.Live ((ρ.st m).host s).bus.w x.sub ∧ Bus.Live ((ρ.st m).host (!s)).bus.w y.sub
  heard : ∀ m, Heard (ends s) x.pub ((ρ.st m).host s) ∧ Heard (ends (!s)) y.pub ((ρ.st m).host (!s))
  fair : ∀ m, Remote.Fair s y.topic id p f (ρ.st m) (ρ.act m)

namespace Way
variable (W : Way ρ s c p id t f x y)
include W

theorem consN (n : Nat) : ∃ z, ((ρ.st n).host s).cons[c]? = some z ∧ z.topic = x.topic ∧ z.sub = x.sub ∧ z.pub = x.pub :=
  (Action.Endless.mono (ρ := ρ.host s) (Nat.zero_le n)).cons c x W.cons

theorem provN (n : Nat) : ∃ z, ((ρ.st n).host (!s)).provs[p]? = some z ∧ z.topic = y.topic ∧ z.sub = y.sub ∧ z.pub = y.pub :=
  (Action.Endless.mono (ρ := ρ.host (!s)) (Nat.zero_le n)).provs p y W.prov

theorem courseN (n : Nat) : Course ends s y.topic id c p t f (ρ.st n) := by
  induction n with
  | zero => exact W.course
  | succ n ih =>
    obtain ⟨x', hx', e1, e2, e3⟩ := W.consN n
    obtain ⟨y', hy', f1, f2, f3⟩ := W.provN n
    exact course_step (Endless.reach W.reach n) ih hx' (e1.trans W.topic) (by rw [e3]; exact (W.heard n).1) hy' f1
      (by rw [f3]; exact (W.heard n).2) (fun r => (W.up n r).2.2) (W.fair n) (ρ.ok n)

theorem calm (r : Bool) (n : Nat) : (ρ.host r).act n ≠ .run .throwing := fun e => by
  have := W.fair n
  rw [host_inv e (fun _ h => by cases h) (fun _ _ h => by cases h)] at this
  by_cases hrs : r = s
  · exact this.1 hrs
  · exact (this.2 (other hrs)).1

theorem threw (h0 : (c, id) ∉ ((ρ.st 0).host s).threw) (n : Nat) : (c, id) ∉ ((ρ.st n).host s).threw := by
  induction n with
  | zero => exact h0
  | succ n ih =>
    have : Action.exec ((ρ.st n).host s) [(ρ.host s).act n] = .to ((ρ.st (n + 1)).host s) := by
      simp only [Action.exec]
      rw [show Action.step ((ρ.st n).host s) ((ρ.host s).act n) = .to ((ρ.st (n + 1)).host s) from (ρ.host s).ok n]
    rw [Action.threw_same (by simpa using (W.calm s n).symm) this]
    exact ih

/-- What is said on a host reaches a subscriber that stays. -/
theorem reaches (hf : ρ.Fair) (hp : ρ.Prompt) {T : Nat} (hT : ρ.NoNewBuses T) (r : Bool) {sub : Nat}
    (hns : sub < ((ρ.st 0).host r).bus.w.ns) (hl : ∀ n, Bus.Live ((ρ.st n).host r).bus.w sub) {n : Nat} {m : BMsg}
    (hm : m ∈ talk ((ρ.st n).host r).bus) (hid : idOf m.dg = some id)
    (htop : ∀ n, Bus.TopicRule (((ρ.st n).host r).bus.w.sub sub).topic m.topic) :
    ∃ k, ∃ d ∈ ((ρ.st k).host r).bus.log, d.sub = sub ∧ d.msg = m ∧ d ∉ ((ρ.st 0).host r).bus.log :=
  Action.Endless.heard (ρ := ρ.host r) (W.reach r) (hf.host r) (hp.host r) (hT.host r) (W.calm r) (W.on r)
    (stays (W.reach r) hns) hl
    (fun h => W.new r m (List.mem_append_right _ h) hid) hm htop

/-- What is said on a host and did not come through its link is said on the other. -/
theorem crosses (hf : ρ.Fair) (hp : ρ.Prompt) {T : Nat} (hT : ρ.NoNewBuses T) (r : Bool) {n : Nat} {m : BMsg}
    (hm : m ∈ talk ((ρ.st n).host r).bus) (hid : idOf m.dg = some id) (hecho : Net.echo (ends r).name m = false) :
    ∃ k, Net.arrive (hop ends (!r)) m ∈ talk ((ρ.st k).host (!r)).bus := by
  obtain ⟨k, d, hd, d1, rfl, -⟩ := W.reaches hf hp hT r (W.known r) (fun n => (W.up n r).1) hm hid
    (fun n => by rw [(W.up n r).2.1]; exact .inr rfl)
  rcases (W.courseN k).pass r d hd d1 hid hecho with h | h
  · obtain ⟨j, i, -, h2, h3⟩ := hp.2.2 (!r) k d.msg h
    have hs := ρ.ok j
    rw [h3] at hs
    obtain ⟨m, hm, g1, -⟩ := step_receive hs
    rw [h2] at hm; cases hm
    exact ⟨j + 1, link_said g1 (W.up j (!r)).2.2⟩
  · exact ⟨k, h⟩

/-- The request is shown to the provider on the other host. -/
theorem shown (hf : ρ.Fair) (hp : ρ.Prompt) {T : Nat} (hT : ρ.NoNewBuses T) :
    ∃ n k, Ev.requested p k id (envelope (bs "request") id t.wire) ∈ ((ρ.st n).host (!s)).evs := by
  have hsent : ∃ n, ∃ m ∈ talk ((ρ.st n).host s).bus, m.topic = requestTopic y.topic ∧ m.dg = envelope (bs "request") id t ∧
      Net.echo (ends s).name m = false := by
    rcases W.course.sent with ⟨q, hq, q1, q2, q3⟩ | h
    · obtain ⟨k, i, _, h1, h2⟩ := hp.2.1 s 0 q hq
      obtain ⟨x', hx', e1, e2, e3⟩ := W.consN k
      have hs := ρ.ok k
      rw [h2] at hs
      obtain ⟨hs, -⟩ := step_act hs
      simp only [Action.step, h1, q1, hx', q2, q3] at hs
      obtain ⟨b, hb, e⟩ := Action.lift_inv hs
      have hk := (Endless.reach W.reach k s).own.cons _ _ hx'
      obtain ⟨a1, a2⟩ := (W.heard k).1
      rw [← e3] at a1 a2
      refine ⟨k + 1, _, by rw [e]; exact pub_said hb hk.active a1, by simp only [hk.pubTopic, e1, W.topic], rfl, ?_⟩
      rw [Bool.eq_false_iff]
      exact fun he => a2 (echo_iff.1 he)
    · exact ⟨0, h⟩
  obtain ⟨n, m, hm, m1, m2, m3⟩ := hsent
  obtain ⟨k, hk⟩ := W.crosses hf hp hT s hm (by rw [m2]; rfl) m3
  have hid : idOf (Net.arrive (hop ends (!s)) m).dg = some id := by
    show idOf m.dg.wire = _
    rw [idOf_wire, m2]; rfl
  have hown : ∀ n, y.sub < ((ρ.st n).host (!s)).bus.w.ns ∧ (((ρ.st n).host (!s)).bus.w.sub y.sub).topic = requestTopic y.topic := by
    intro n
    obtain ⟨y', hy', f1, f2, f3⟩ := W.provN n
    have := (Endless.reach W.reach n (!s)).own.provs _ _ hy'
    exact ⟨f2 ▸ this.sub, by rw [← f2, this.subTopic, f1]⟩
  obtain ⟨j, d, hd, d1, d2, -⟩ := W.reaches hf hp hT (!s) (hown 0).1 (fun n => (W.live n).2) hk hid
    (fun n => by rw [(hown n).2]; exact .inl m1.symm)
  obtain ⟨y', hy', f1, f2, f3⟩ := W.provN j
  obtain ⟨i, hi⟩ := ((W.courseN j).shown y' hy').2 d hd (d1.trans f2.symm) (by rw [d2]; exact hid)
  rw [d2, show (Net.arrive (hop ends (!s)) m).dg = m.dg.wire from rfl, m2, envelope_wire] at hi
  exact ⟨j, i, hi⟩

/-- The request is answered. -/
theorem answered (hf : ρ.Fair) (hp : ρ.Prompt) {T : Nat} (hT : ρ.NoNewBuses T) (hd : ∀ n, Distinct ((ρ.st n).host s)) {a : Asked}
    (ha : a ∈ ((ρ.st 0).host s).asked) (a1 : a.cons = c) (a2 : a.id = id) (a3 : a.seen = ((ρ.st 0).host s).bus.log.length)
    (ht : (c, id) ∉ ((ρ.st 0).host s).threw)
    (hans : ∀ m k t, Ev.requested p k id t ∈ ((ρ.st m).host (!s)).evs → ∃ m', (p, id, f t) ∈ ((ρ.st m').host (!s)).replied) :
    ∃ n, ∀ m, n ≤ m → Action.answers c id ((ρ.st m).host s).evs =
      [.answered c id a.cb (f (envelope (bs "request") id t.wire)).wire] := by
  obtain ⟨n, k, hk⟩ := W.shown hf hp hT
  obtain ⟨n', hn'⟩ := hans n k _ hk
  obtain ⟨m, hm, m1, m2, m3⟩ := (W.courseN n').told _ hn'
  obtain ⟨k, hk⟩ := W.crosses hf hp hT (!s) hm (by rw [m2]; rfl) m3
  rw [Bool.not_not] at hk
  have hid : idOf (Net.arrive (hop ends s) m).dg = some id := by
    show idOf m.dg.wire = _
    rw [idOf_wire, m2]; rfl
  have hown : ∀ n, x.sub < ((ρ.st n).host s).bus.w.ns ∧ (((ρ.st n).host s).bus.w.sub x.sub).topic = responseTopic y.topic := by
    intro n
    obtain ⟨x', hx', f1, f2, f3⟩ := W.consN n
    have := (Endless.reach W.reach n s).own.cons _ _ hx'
    exact ⟨f2 ▸ this.sub, by rw [← f2, this.subTopic, f1, W.topic]⟩
  obtain ⟨k, e, he, e1, e2, e3⟩ := W.reaches hf hp hT s (hown 0).1 (fun n => (W.live n).1) hk hid
    (fun n => by rw [(hown n).2]; exact .inl m1.symm)
  refine ⟨k, fun j hj => ?_⟩
  obtain ⟨x', hx', f1, f2, f3⟩ := W.consN j
  have mj : Action.Mono ((ρ.st k).host s) ((ρ.st j).host s) := Action.Endless.mono (ρ := ρ.host s) hj
  have m0 : Action.Mono ((ρ.st 0).host s) ((ρ.st j).host s) := Action.Endless.mono (ρ := ρ.host s) (Nat.zero_le j)
  have hr := Endless.reach W.reach j s
  subst a1 a2
  obtain ⟨z, hz, hz'⟩ := Action.C45_first_response_once _ hr (hd j) a (m0.asked.subset ha) (W.threw ht j)
  rw [hx'] at hz; cases hz
  rw [hz']
  have hmem : e ∈ responses x'.sub a.id (((ρ.st j).host s).bus.log.drop a.seen) := by
    simp only [responses, List.mem_filter, Bool.and_eq_true, beq_iff_eq]
    refine ⟨?_, e1.trans f2.symm, by rw [e2]; exact hid⟩
    have hj' := mj.log.subset he
    obtain ⟨l, hl⟩ := m0.log
    rw [a3, ← hl, List.drop_left]
    rw [← hl] at hj'
    rcases List.mem_append.1 hj' with h' | h'
    · exact absurd h' e3
    · exact h'
  obtain ⟨d₀, rest, hrs⟩ := List.exists_cons_of_ne_nil (List.ne_nil_of_mem hmem)
  rw [hrs]
  have h0 : d₀ ∈ responses x'.sub a.id (((ρ.st j).host s).bus.log.drop a.seen) := by rw [hrs]; exact List.mem_cons_self
  simp only [responses, List.mem_filter, Bool.and_eq_true, beq_iff_eq] at h0
  obtain ⟨h01, h02, h03⟩ := h0
  obtain ⟨-, q1, q2, -⟩ := Bus.C30_no_spurious_delivery _ hr.bus d₀ (List.mem_of_mem_drop h01)
  rw [h02, (hr.own.cons _ _ hx').subTopic, Action.response_rule, f1, W.topic] at q2
  have := (((W.courseN j).near d₀.msg (List.mem_append_right _ (List.mem_of_getElem? q1)) h03).2 q2).2
  simp [this]

end Way

/-- A registration begins the course. -/
theorem way_start {n : Nat} {cb : Cb} {fr : Option Nat} (h : ∀ r, Action.Reachable ((ρ.st 0).host r))
    (hx : ((ρ.st n).host s).cons[c]? = some x) (hy : ((ρ.st n).host (!s)).provs[p]? = some y) (ht : x.topic = y.topic) (hcb : y.cb ≠ none)
    (hfresh : Fresh (ρ.st n) id) (hon : ∀ r, ((ρ.st n).host r).bus.phase ≠ .off) (hend : ∀ r, (ends r).sub < ((ρ.st n).host r).bus.w.ns)
    (hs : ρ.Served n s x y p id f) {a : Action.Act} (ha : ρ.act n = .act s a)
    (e1 : ((ρ.st (n + 1)).host s).bus = ((ρ.st n).host s).bus)
    (e2 : ((ρ.st (n + 1)).host s).pending = ((ρ.st n).host s).pending ++ [⟨c, id, t, fr⟩])
    (e5 : ((ρ.st (n + 1)).host s).threw = ((ρ.st n).host s).threw)
    (e6 : ((ρ.st (n + 1)).host s).asked = ((ρ.st n).host s).asked ++ [⟨c, id, cb, t, ((ρ.st n).host s).bus.log.length⟩]) :
    (∃ x', Way (ρ.tail (n + 1)) s c p id t f x' y) ∧
      (⟨c, id, cb, t, (((ρ.tail (n + 1)).st 0).host s).bus.log.length⟩ : Asked) ∈ (((ρ.tail (n + 1)).st 0).host s).asked ∧
      (c, id) ∉ (((ρ.tail (n + 1)).st 0).host s).threw := by
  have hr := Endless.reach h n
  have hr' := Endless.reach h (n + 1)
  have hst := ρ.ok n
  rw [ha] at hst
  obtain ⟨g1, g2, g3, g4⟩ := step_act hst
  have hb : ∀ r, ((ρ.st (n + 1)).host r).bus = ((ρ.st n).host r).bus := by
    intro r
    by_cases e : r = s
    · subst e; exact e1
    · rw [other e, g2]
  have hw : ∀ r, (ρ.st (n + 1)).way r = (ρ.st n).way r := by
    intro r
    by_cases e : r = s
    · subst e; exact g3
    · rw [other e, g4]; simp [sends, e1]
  have new : ∀ r, ∀ m ∈ talk ((ρ.st (n + 1)).host r).bus, idOf m.dg ≠ some id := fun r m hm => by
    rw [hb] at hm; exact (hfresh r).1.1 m hm
  obtain ⟨x', hx', x1, x2, x3⟩ := (keeps hst s).cons c x hx
  refine ⟨⟨x', ?_⟩, ?_, ?_⟩
  · refine ⟨hr', ?_, hx', ?_, x1.trans ht, ?_, ?_, new, ?_, ?_, ?_, ?_⟩
    · refine ⟨fun m hm hid => absurd hid (new _ m hm), fun m hm hid => absurd hid (new _ m hm), ?_, ?_, ?_, ?_, ?_, ?_, ?_, ?_⟩
      · intro m hm hid
        simp only [Endless.tail, Nat.add_zero] at hm
        rw [hw] at hm; exact absurd hid ((hfresh _).2 m hm)
      · intro m hm hid
        simp only [Endless.tail, Nat.add_zero] at hm
        rw [hw] at hm; exact absurd hid ((hfresh _).2 m hm)
      · intro q hq hid
        simp only [Endless.tail, Nat.add_zero] at hq
        rw [e2] at hq
        rcases List.mem_append.1 hq with hq | hq
        · obtain ⟨a, ha, -, a2, -⟩ := (hr s).pendAsked q hq
          exact absurd (a2.trans hid) ((hfresh s).1.2.1 a ha)
        · simp only [List.mem_singleton] at hq; subst hq; exact ⟨rfl, rfl⟩
      · intro q hq hid
        simp only [Endless.tail, Nat.add_zero] at hq
        rw [g2] at hq
        obtain ⟨a, ha, -, a2, -⟩ := (hr (!s)).pendAsked q hq
        exact absurd (a2.trans hid) ((hfresh _).1.2.1 a ha)
      · left
        simp only [Endless.tail, Nat.add_zero]
        rw [e2]; exact ⟨⟨c, id, t, fr⟩, by simp, rfl, rfl, rfl⟩
      · intro y' hy'
        simp only [Endless.tail, Nat.add_zero] at hy' ⊢
        rw [g2, hy] at hy'; cases hy'
        exact ⟨hcb, fun d hd _ hid => absurd hid (new _ _ (said_of_log (hr' _) hd))⟩
      · intro u hu
        simp only [Endless.tail, Nat.add_zero] at hu
        rw [g2] at hu
        exact absurd rfl ((hfresh _).1.2.2 _ hu)
      · exact fun r d hd _ hid => absurd hid (new _ _ (said_of_log (hr' _) hd))
    · simp only [Endless.tail, Nat.add_zero]; rw [g2]; exact hy
    · intro r; simp only [Endless.tail, Nat.add_zero]; rw [hb]; exact hon r
    · intro r; simp only [Endless.tail, Nat.add_zero]; rw [hb]; exact hend r
    · intro m; exact hs.up (n + 1 + m) (by omega)
    · intro m; rw [x2]; exact hs.live (n + 1 + m) (by omega)
    · intro m; rw [x3]; exact hs.heard (n + 1 + m) (by omega)
    · intro m; exact hs.fair (n + 1 + m) (by omega)
  · simp only [Endless.tail, Nat.add_zero]; rw [e6, e1]; simp
  · simp only [Endless.tail, Nat.add_zero]; rw [e5]
    intro hm
    obtain ⟨_, a, ha, -, a2, -⟩ := (hr s).hist.threw c id hm
    exact (hfresh s).1.2.1 a ha a2

theorem way_request {n k : Nat} (h : ∀ r, Action.Reachable ((ρ.st 0).host r)) (ha : ρ.act n = .act s (.request c id k t))
    (hx : ((ρ.st n).host s).cons[c]? = some x) (hy : ((ρ.st n).host (!s)).provs[p]? = some y) (ht : x.topic = y.topic) (hcb : y.cb ≠ none)
    (hfresh : Fresh (ρ.st n) id) (hon : ∀ r, ((ρ.st n).host r).bus.phase ≠ .off) (hend : ∀ r, (ends r).sub < ((ρ.st n).host r).bus.w.ns)
    (hs : ρ.Served n s x y p id f) :
    ∃ x', Way (ρ.tail (n + 1)) s c p id t f x' y ∧
      (⟨c, id, .user k, t, (((ρ.tail (n + 1)).st 0).host s).bus.log.length⟩ : Asked) ∈ (((ρ.tail (n + 1)).st 0).host s).asked ∧
      (c, id) ∉ (((ρ.tail (n + 1)).st 0).host s).threw := by
  have hst := ρ.ok n
  rw [ha] at hst
  have hst := (step_act hst).1
  simp only [Action.step, hx, Next.to.injEq] at hst
  obtain ⟨⟨x', W⟩, h2⟩ := way_start (cb := .user k) (fr := none) h hx hy ht hcb hfresh hon hend hs ha (by rw [← hst]; rfl)
    (by rw [← hst]; rfl) (by rw [← hst]; rfl) (by rw [← hst]; rfl)
  exact ⟨x', W, h2⟩

theorem way_begin {n : Nat} (h : ∀ r, Action.Reachable ((ρ.st 0).host r)) (ha : ρ.act n = .act s (.begin c id t false))
    (hx : ((ρ.st n).host s).cons[c]? = some x) (hy : ((ρ.st n).host (!s)).provs[p]? = some y) (ht : x.topic = y.topic) (hcb : y.cb ≠ none)
    (hfresh : Fresh (ρ.st n) id) (hon : ∀ r, ((ρ.st n).host r).bus.phase ≠ .off) (hend : ∀ r, (ends r).sub < ((ρ.st n).host r).bus.w.ns)
    (hs : ρ.Served n s x y p id f) :
    ∃ x', Way (ρ.tail (n + 1)) s c p id t f x' y ∧
      (⟨c, id, .frame ((ρ.st n).host s).frames.length, t, (((ρ.tail (n + 1)).st 0).host s).bus.log.length⟩ : Asked) ∈
        (((ρ.tail (n + 1)).st 0).host s).asked ∧
      (c, id) ∉ (((ρ.tail (n + 1)).st 0).host s).threw ∧
      ∃ g, (((ρ.tail (n + 1)).st 0).host s).frames[((ρ.st n).host s).frames.length]? = some g ∧ g.cons = c ∧ g.id = id := by
  have hst := ρ.ok n
  rw [ha] at hst
  have hst := (step_act hst).1
  simp only [Action.step, hx, Bool.false_eq_true, false_and, if_false, Next.to.injEq] at hst
  obtain ⟨⟨x', W⟩, h2, h3⟩ := way_start (cb := .frame ((ρ.st n).host s).frames.length) (fr := some ((ρ.st n).host s).frames.length)
    h hx hy ht hcb hfresh hon hend hs ha (by rw [← hst]; rfl) (by rw [← hst]; rfl) (by rw [← hst]; rfl) (by rw [← hst]; rfl)
  refine ⟨x', W, h2, h3, ⟨c, id, .sending, true, .empty, none⟩, ?_, rfl, rfl⟩
  simp only [Endless.tail, Nat.add_zero]
  rw [← hst]; simp

end Endless
end LP.Remote
