import Verif.Lemma.SysRemote
import Verif.Prop.RemoteEndless
import Verif.Lemma.RemotePlay
/-!
# Executions without end of two hosts, one with the SysInfo plugin, that begin with a given one
-/
namespace LP.SysRemote
open LP.Remote (End put sends turn Up Heard)
open LP.Action (Next Cons Prov Ev Distinct doze)
open LP.Bus (BMsg)

variable {ends : Bool → End}

/-- Check a state condition and an event condition along an execution, and something about its end. -/
def watch (ends : Bool → End) (P : St → Bool) (Q : St → Act → Bool) (k : St → Bool) : St → List Act → Bool
  | σ, [] => P σ && k σ
  | σ, a :: as => P σ && Q σ a && match step ends σ a with
    | .to σ' => watch ends P Q k σ' as
    | _ => false

/-- The bus threads of both hosts look at empty queues in turn. -/
def dozing (σ : St) (n : Nat) : St :=
  { σ with peer := { σ.peer with bus := { σ.peer.bus with phase := doze ((n + 1) / 2) } },
           sys := { σ.sys with world := { σ.sys.world with bus := { σ.sys.world.bus with phase := doze (n / 2) } } } }

/-- The event of the rest. -/
def restAct (n : Nat) : Act := if turn n then .sys (.world (.run .go)) else .peer (.run .go)

/-- Both hosts are at rest. -/
structure Rest (σ : St) : Prop where
  free : Action.blocked σ.peer = false ∧ Action.blocked σ.sys.world = false
  running : (σ.peer.bus.w.bus 0).running = true ∧ (σ.sys.world.bus.w.bus 0).running = true
  queue : σ.peer.bus.w.queue = [] ∧ σ.sys.world.bus.w.queue = []
  phase : σ.peer.bus.phase = .asleep ∧ σ.sys.world.bus.phase = .asleep
  cur : σ.sys.world.cur = .idle
  calls : (σ.peer.bus.inflight = [] ∧ σ.peer.pending = []) ∧ σ.sys.world.bus.inflight = [] ∧ σ.sys.world.pending = []
  way : ∀ r, σ.way r = []

theorem dozing_step {σ : St} (h : Rest σ) (n : Nat) : step ends (dozing σ n) (restAct n) = .to (dozing σ (n + 1)) := by
  have h2 : n % 2 = 0 ∨ n % 2 = 1 := by omega
  rcases h2 with h2 | h2
  · have ht : restAct n = .peer (.run .go) := by simp [restAct, turn, h2]
    rw [ht]
    simp only [step, dozing]
    rw [Action.doze_step h.free.1 h.running.1 h.queue.1 ((n + 1) / 2), show (n + 1) / 2 + 1 = (n + 1 + 1) / 2 by omega,
      show (n + 1) / 2 = n / 2 by omega]
    simp only [Next.to.injEq, St.mk.injEq, true_and]
    funext r; cases r <;> simp [put, sends]
  · have ht : restAct n = .sys (.world (.run .go)) := by simp [restAct, turn, h2]
    rw [ht]
    have hm : SysInfo.mine { σ.sys with world := { σ.sys.world with bus := { σ.sys.world.bus with phase := doze (n / 2) } } } = false := by
      simp [SysInfo.mine, h.cur]
    have hst : SysInfo.step { σ.sys with world := { σ.sys.world with bus := { σ.sys.world.bus with phase := doze (n / 2) } } } (.world (.run .go)) =
        .to { σ.sys with world := { σ.sys.world with bus := { σ.sys.world.bus with phase := doze ((n + 1) / 2) } } } := by
      simp only [SysInfo.step]
      rw [if_neg (fun e => e.elim (fun h' => by cases h') (fun h' => by rw [hm] at h'; cases h'.1)),
        Action.doze_step h.free.2 h.running.2 h.queue.2 (n / 2), show n / 2 + 1 = (n + 1) / 2 by omega]
      rfl
    simp only [step, dozing, hst, Next.to.injEq, St.mk.injEq, true_and]
    refine ⟨?_, ?_⟩
    · rw [show (n + 1 + 1) / 2 = (n + 1) / 2 by omega]
    · funext r; cases r <;> simp [put, sends]

namespace Endless

/-- Nothing happens any more. -/
def resting (ends : Bool → End) (σ : St) (h : Rest σ) : Endless ends := ⟨dozing σ, restAct, dozing_step h⟩

/-- One more event at the beginning. -/
def cons (σ : St) (a : Act) (ρ : Endless ends) (h : step ends σ a = .to (ρ.st 0)) : Endless ends :=
  ⟨fun n => match n with | 0 => σ | n + 1 => ρ.st n, fun n => match n with | 0 => a | n + 1 => ρ.act n,
    fun n => match n with | 0 => h | n + 1 => ρ.ok n⟩

/-- A finite execution and then rest. -/
theorem extend {σ : St} {as : List Act} {P : St → Bool} {Q : St → Act → Bool} {k : St → Bool} (h : watch ends P Q k σ as = true)
    (hk : ∀ τ, k τ = true → Rest τ) :
    ∃ ρ : Endless ends, ∃ τ, ρ.st 0 = σ ∧ k τ = true ∧ P τ = true ∧ (∀ j, ρ.st (as.length + j) = dozing τ j ∧ ρ.act (as.length + j) = restAct j) ∧
      (∀ m, m < as.length → P (ρ.st m) = true ∧ Q (ρ.st m) (ρ.act m) = true) ∧ ∀ m, m < as.length → as[m]? = some (ρ.act m) := by
  induction as generalizing σ with
  | nil =>
    simp only [watch, Bool.and_eq_true] at h
    refine ⟨resting ends σ (hk σ h.2), σ, ?_, h.2, h.1, fun j => by simp [resting], fun m hm => by simp at hm, fun m hm => by simp at hm⟩
    show dozing σ 0 = σ
    have hph := (hk σ h.2).phase
    obtain ⟨p, s, w⟩ := σ
    simp only [dozing]
    have e1 : ({ p with bus := { p.bus with phase := doze ((0 + 1) / 2) } } : Action.St) = p := by
      rw [show doze ((0 + 1) / 2) = .asleep from rfl, ← hph.1]
    have e2 : ({ s.world with bus := { s.world.bus with phase := doze (0 / 2) } } : Action.St) = s.world := by
      rw [show doze (0 / 2) = .asleep from rfl, ← hph.2]
    rw [e1, e2]
  | cons a as ih =>
    simp only [watch, Bool.and_eq_true] at h
    obtain ⟨⟨h1, h2⟩, h3⟩ := h
    split at h3
    · rename_i σ' hσ'
      obtain ⟨ρ, τ, e1, e2, e3, e4, e5, e6⟩ := ih h3
      refine ⟨cons σ a ρ (by rw [e1]; exact hσ'), τ, rfl, e2, e3, fun j => ?_, fun m hm => ?_, fun m hm => ?_⟩
      · rw [show (a :: as).length + j = (as.length + j) + 1 by simp; omega]; exact e4 j
      · cases m with
        | zero => exact ⟨h1, h2⟩
        | succ m => exact e5 m (by simpa using hm)
      · cases m with
        | zero => rfl
        | succ m => exact e6 m (by simpa using hm)
    · cases h3

/-- An event of the plugin's host that pushes a message or sends a request is one of other code. -/
theorem under_world {σ σ' : St} {a : Act} {x : Action.Act} (h : step ends σ a = .to σ') (e : under σ a = .act true x)
    (hx : (∃ i, x = .bus (.push i)) ∨ ∃ i, x = .send i) : a = .sys (.world x) := by
  cases a with
  | peer a => simp [under] at e
  | receive s i => cases e
  | sys a =>
    simp only [under, Remote.Act.act.injEq, true_and] at e
    have hs := of_sys h
    generalize σ'.sys = τ at hs
    cases SysInfo.step_eff hs with
    | world a w g1 g2 g3 => simp only [SysInfo.under, Option.getD_some] at e; rw [e]
    | init0 w g1 g2 => simp [SysInfo.under, g1] at e; subst e; simp at hx
    | init1 w g1 g2 => simp [SysInfo.under, g1] at e; subst e; simp at hx
    | init2 w g1 g2 => simp [SysInfo.under, g1] at e; subst e; simp at hx
    | init3 w g1 g2 => simp [SysInfo.under, g1] at e; subst e; simp at hx
    | init4 s q w g1 g2 g3 g4 => simp [SysInfo.under, g1, g2, g3] at e; subst e; simp at hx
    | beat q w g1 g2 g3 g4 => simp [SysInfo.under, g3] at e; subst e; simp at hx
    | unsub s w g1 g2 g3 => simp [SysInfo.under, g1, g2] at e; subst e; simp at hx
    | unpub q w g1 g2 g3 => simp [SysInfo.under, g1, g2] at e; subst e; simp at hx
    | destroy g1 => simp [SysInfo.under] at e; subst e; simp at hx
    | respond p id w g1 g2 g3 g4 g5 => simp [SysInfo.under, g1, g3] at e; subst e; simp at hx
    | leave p id w g1 g2 g3 g4 g5 => simp [SysInfo.under, g1, g3] at e; subst e; simp at hx
    | heard d w g1 g2 g3 g4 g5 => simp [SysInfo.under, g1, g2] at e; subst e; simp at hx

theorem under_peer {σ : St} {a : Act} {x : Action.Act} (e : under σ a = .act false x) : a = .peer x := by
  cases a with
  | peer a => simp [under] at e; rw [e]
  | receive s i => cases e
  | sys a => simp [under] at e

theorem under_receive {σ : St} {a : Act} {r : Bool} {i : Nat} (e : under σ a = .receive r i) : a = .receive r i := by
  cases a with
  | peer a => cases e
  | receive s i => simp only [under, Remote.Act.receive.injEq] at e; rw [e.1, e.2]
  | sys a => cases e

theorem prompt_of_flat {ρ : Endless ends} (h : ρ.flat.Prompt) : ρ.Prompt := by
  obtain ⟨h1, h2, h3⟩ := h
  refine ⟨fun n m hm => ?_, fun n m hm => ?_, fun n m hm => ?_, fun n m hm => ?_, fun r n m hm => ?_⟩
  · obtain ⟨k, i, e1, e2, e3⟩ := h1 false n m hm; exact ⟨k, i, e1, e2, under_peer e3⟩
  · obtain ⟨k, i, e1, e2, e3⟩ := h2 false n m hm; exact ⟨k, i, e1, e2, under_peer e3⟩
  · obtain ⟨k, i, e1, e2, e3⟩ := h1 true n m hm; exact ⟨k, i, e1, e2, under_world (ρ.ok k) e3 (.inl ⟨i, rfl⟩)⟩
  · obtain ⟨k, i, e1, e2, e3⟩ := h2 true n m hm; exact ⟨k, i, e1, e2, under_world (ρ.ok k) e3 (.inr ⟨i, rfl⟩)⟩
  · obtain ⟨k, i, e1, e2, e3⟩ := h3 r n m hm; exact ⟨k, i, e1, e2, under_receive e3⟩

end Endless

/-- The links of the example: subscriber 1 of the first host, subscriber 0 of the second, and the roots. -/
def eastWest (s : Bool) : End := if s then ⟨bs "east", 0, 0⟩ else ⟨bs "west", 1, 0⟩

/-- A consumer and a link on the first host. -/
def west : List Action.Act :=
  [.bus (.createPub 0 (bs "/sysinfoaction/request")), .bus (.createSub 0 (bs "/sysinfoaction/response") none),
   .consumer 0 0 (bs "/sysinfoaction"), .bus (.createSub 0 (bs "/**/*") (some 0)), .bus .start]

/-- A link on the second, where the plugin is loaded: publishers 0 and 1, subscribers 1 and 2, provider 0. -/
def east : List Action.Act := [.bus (.createSub 0 (bs "/**/*") (some 0)), .bus .start]

/-- The beginning. -/
def begin : Option St :=
  (Action.play (bs "r") west).bind (fun p => (SysInfo.play east 0 true SysInfo.load).map (fun s => ⟨p, s, fun _ => []⟩))

/-- What the examples check about every state: links, consumer and provider are served, and only strings were published on "/sysinfo". -/
def served (σ : St) : Bool :=
  Action.atRoot 0 0 σ.peer.bus && Action.atRoot 1 0 σ.peer.bus && (σ.peer.bus.w.sub 1).topic == bs "/**/*" &&
    !Net.echo (bs "west") ⟨(σ.peer.bus.w.bus (σ.peer.bus.w.pub 0).bus).name, [], .empty⟩ &&
    Action.atRoot 2 1 σ.sys.world.bus && Action.atRoot 0 1 σ.sys.world.bus && (σ.sys.world.bus.w.sub 0).topic == bs "/**/*" &&
    !Net.echo (bs "east") ⟨(σ.sys.world.bus.w.bus (σ.sys.world.bus.w.pub 1).bus).name, [], .empty⟩ &&
    σ.sys.world.bus.published.all (fun m => m.topic != bs "/sysinfo" || SysInfo.isString m.dg)

/-- What `served` means. -/
structure Fine (σ : St) : Prop where
  up : Up (eastWest false) σ.peer ∧ Up (eastWest true) σ.sys.world
  live : Bus.Live σ.peer.bus.w 0 ∧ Bus.Live σ.sys.world.bus.w 2
  heard : Heard (eastWest false) 0 σ.peer ∧ Heard (eastWest true) 1 σ.sys.world
  strings : ∀ m ∈ σ.sys.world.bus.published, m.topic = bs "/sysinfo" → ∃ s, m.dg = .value (.str s)

theorem served_sound {σ : St} (h : served σ = true) : Fine σ := by
  simp only [served, Bool.and_eq_true, Bool.not_eq_true', beq_iff_eq] at h
  obtain ⟨⟨⟨⟨⟨⟨⟨⟨h1, h2⟩, h3⟩, h4⟩, h5⟩, h6⟩, h7⟩, h8⟩, h9⟩ := h
  obtain ⟨k1, k2⟩ := Action.atRoot_sound h1
  obtain ⟨k3, -⟩ := Action.atRoot_sound h2
  obtain ⟨k5, k6⟩ := Action.atRoot_sound h5
  obtain ⟨k7, -⟩ := Action.atRoot_sound h6
  simp only [Action.atRoot, Bool.and_eq_true] at h1 h5
  refine ⟨⟨⟨k3, h3, h1.2⟩, ⟨k7, h7, h5.2⟩⟩, ⟨k1, k5⟩, ⟨⟨k2, fun ht => ?_⟩, ⟨k6, fun ht => ?_⟩⟩, fun m hm ht => ?_⟩
  · have := (Remote.echo_iff (e := eastWest false) (m := ⟨(σ.peer.bus.w.bus (σ.peer.bus.w.pub 0).bus).name, [], .empty⟩)).2 ht
    rw [show (eastWest false).name = bs "west" from rfl, h4] at this; cases this
  · have := (Remote.echo_iff (e := eastWest true) (m := ⟨(σ.sys.world.bus.w.bus (σ.sys.world.bus.w.pub 1).bus).name, [], .empty⟩)).2 ht
    rw [show (eastWest true).name = bs "east" from rfl, h8] at this; cases this
  · have := List.all_eq_true.1 h9 m hm
    rw [ht] at this
    exact SysInfo.isString_some (by simpa using this)

/-- The events of the examples. -/
def expected (_ : St) : Act → Bool
  | .peer (.send _) => true
  | .peer (.bus (.push _)) => true
  | .peer (.run .go) => true
  | .peer (.wait _) => true
  | .peer .lambda => true
  | .peer _ => false
  | .sys (.world (.bus (.push _))) => true
  | .sys (.world (.run .go)) => true
  | .sys (.world _) => false
  | .sys _ => true
  | .receive _ _ => true

theorem expected_sound {σ : St} {a : Act} (h : expected σ a = true) :
    (∀ b, a = .peer b → Remote.Reserved (bs "/sysinfoaction") (bs "1") σ.peer b ∧ ∀ c n, b ≠ .bus (.createChild c n)) ∧
    (∀ b, a = .sys (.world b) → Action.Honest (bs "/sysinfoaction") (bs "1") 0 σ.sys.world b ∧ ∀ c n, b ≠ .bus (.createChild c n)) := by
  cases a with
  | peer b =>
    refine ⟨fun b' e => ?_, (fun b' e => by cases e)⟩
    cases e
    cases b with
    | send => exact ⟨trivial, by simp⟩
    | wait => exact ⟨trivial, by simp⟩
    | lambda => exact ⟨trivial, by simp⟩
    | run o => cases o with
      | go => exact ⟨trivial, by simp⟩
      | _ => simp [expected] at h
    | bus o => cases o with
      | push => exact ⟨trivial, by simp⟩
      | _ => simp [expected] at h
    | _ => simp [expected] at h
  | sys b =>
    refine ⟨(fun b' e => by cases e), fun b' e => ?_⟩
    cases e
    cases b' with
    | run o => cases o with
      | go => exact ⟨trivial, by simp⟩
      | _ => simp [expected] at h
    | bus o => cases o with
      | push => exact ⟨trivial, by simp⟩
      | _ => simp [expected] at h
    | _ => simp [expected] at h
  | receive => exact ⟨(fun b e => by cases e), (fun b e => by cases e)⟩

/-- What the examples check about the state before the request. -/
def ready (σ : St) : Bool :=
  (σ.peer.cons.map (fun x => (x.topic, x.sub, x.pub)) == [(bs "/sysinfoaction", 0, 0)]) &&
    (σ.sys.world.provs.map (fun x => (x.sub, x.pub)) == [(2, 1)]) && (σ.sys.prov == some 0) &&
    (σ.peer.bus.inflight ++ σ.peer.bus.published).isEmpty && σ.peer.asked.isEmpty && σ.peer.replied.isEmpty &&
    (σ.sys.world.bus.inflight ++ σ.sys.world.bus.published).isEmpty && σ.sys.world.asked.isEmpty && σ.sys.world.replied.isEmpty &&
    (σ.way false).isEmpty && (σ.way true).isEmpty && decide (1 < σ.peer.bus.w.ns) && decide (0 < σ.sys.world.bus.w.ns) && σ.peer.frames.isEmpty &&
    (match σ.peer.bus.phase, σ.sys.world.bus.phase with | .off, _ => false | _, .off => false | _, _ => true)

/-- What the examples check about the final state. -/
def rested (σ : St) : Bool :=
  !Action.blocked σ.peer && !Action.blocked σ.sys.world && (σ.peer.bus.w.bus 0).running && (σ.sys.world.bus.w.bus 0).running &&
    σ.peer.bus.w.queue.isEmpty && σ.sys.world.bus.w.queue.isEmpty &&
    (match σ.peer.bus.phase, σ.sys.world.bus.phase, σ.sys.world.cur with | .asleep, .asleep, .idle => true | _, _, _ => false) &&
    σ.peer.bus.inflight.isEmpty && σ.peer.pending.isEmpty && σ.sys.world.bus.inflight.isEmpty && σ.sys.world.pending.isEmpty &&
    (σ.way false).isEmpty && (σ.way true).isEmpty && (σ.peer.asked.map (fun a => (a.cons, a.id)) == [(0, bs "1")]) &&
    (σ.peer.frames.isEmpty || (match σ.peer.frames with | [g] => decide (g.pc = .done) | _ => false))

theorem rested_sound {σ : St} (h : rested σ = true) : Rest σ ∧ Distinct σ.peer ∧ (σ.peer.frames = [] ∨ ∃ g, σ.peer.frames[0]? = some g ∧ g.pc = .done) := by
  simp only [rested, Bool.and_eq_true, Bool.not_eq_true', beq_iff_eq, List.isEmpty_iff, Bool.or_eq_true] at h
  obtain ⟨⟨⟨⟨⟨⟨⟨⟨⟨⟨⟨⟨⟨⟨a1, a2⟩, a3⟩, a4⟩, a5⟩, a6⟩, a7⟩, a8⟩, a9⟩, a10⟩, a11⟩, a12⟩, a13⟩, a14⟩, a15⟩ := h
  have hph : σ.peer.bus.phase = .asleep ∧ σ.sys.world.bus.phase = .asleep ∧ σ.sys.world.cur = .idle := by
    split at a7
    · rename_i e1 e2 e3; exact ⟨e1, e2, e3⟩
    · cases a7
  refine ⟨⟨⟨a1, a2⟩, ⟨a3, a4⟩, ⟨a5, a6⟩, ⟨hph.1, hph.2.1⟩, hph.2.2, ⟨⟨a8, a9⟩, a10, a11⟩, fun r => ?_⟩, ?_, ?_⟩
  · cases r
    · exact a12
    · exact a13
  · unfold Distinct; rw [a14]; decide
  · rcases a15 with e | e
    · exact .inl e
    · split at e
      · rename_i g hg; exact .inr ⟨g, by rw [hg]; rfl, by simpa using e⟩
      · cases e

theorem sample (a : Act) (as : List Act)
    (h : (match begin with
      | none => false
      | some σ₀ => ready σ₀ && watch eastWest (fun _ => true) (fun _ _ => true) (fun σ₁ => watch eastWest served expected rested σ₁ as) σ₀ [a]) = true) :
    ∃ ρ : Endless eastWest, ∃ x y T, Action.Reachable (ρ.st 0).peer ∧ SysInfo.Reachable (ρ.st 0).sys ∧ ρ.act 0 = a ∧
      (ρ.st 0).peer.cons[0]? = some x ∧ x.topic = bs "/sysinfoaction" ∧ (ρ.st 0).sys.prov = some 0 ∧
      (ρ.st 0).sys.world.provs[0]? = some y ∧ Fresh (ρ.st 0) (bs "1") ∧
      ((ρ.st 0).peer.bus.phase ≠ .off ∧ (ρ.st 0).sys.world.bus.phase ≠ .off) ∧
      ((eastWest false).sub < (ρ.st 0).peer.bus.w.ns ∧ (eastWest true).sub < (ρ.st 0).sys.world.bus.w.ns) ∧ ρ.Fair ∧ ρ.Prompt ∧ ρ.NoNewBuses T ∧
      ρ.Served 0 x y 0 (bs "1") ∧ (∀ m, Distinct (ρ.st m).peer) ∧ (ρ.st 0).peer.frames.length = 0 ∧ ρ.Awake 0 ∧
      ∀ m, m < as.length → as[m]? = some (ρ.act (m + 1)) := by
  cases hb : begin with
  | none => rw [hb] at h; cases h
  | some σ₀ =>
  rw [hb] at h
  simp only [Bool.and_eq_true] at h
  obtain ⟨hr, h⟩ := h
  have hreach : Action.Reachable σ₀.peer ∧ SysInfo.Reachable σ₀.sys := by
    simp only [begin, Option.bind_eq_some_iff, Option.map_eq_some_iff] at hb
    obtain ⟨p, hp, s, hs, rfl⟩ := hb
    exact ⟨Action.play_reachable hp, SysInfo.play_reachable hs⟩
  simp only [watch, Bool.true_and] at h
  cases hs1 : step eastWest σ₀ a with
  | cannot => rw [hs1] at h; cases h
  | undefined => rw [hs1] at h; cases h
  | to σ₁ =>
  rw [hs1] at h
  simp only at h
  obtain ⟨ρ, τ, e1, e2, e3, e4, e5, e6⟩ := Endless.extend h (fun τ h => (rested_sound h).1)
  obtain ⟨hrest, hdist, hfr⟩ := rested_sound e2
  let ρ' := Endless.cons σ₀ a ρ (by rw [e1]; exact hs1)
  have later : ∀ k, as.length ≤ k → ρ.st k = dozing τ (k - as.length) ∧ ρ.act k = restAct (k - as.length) := by
    intro k hk
    obtain ⟨n, rfl⟩ := Nat.exists_eq_add_of_le hk
    rw [show as.length + n - as.length = n by omega]
    exact e4 n
  have fine : ∀ m, Fine (ρ.st m) := by
    intro m
    by_cases hm : m < as.length
    · exact served_sound (e5 m hm).1
    · rw [(later m (by omega)).1]
      obtain ⟨f1, f2, f3, f4⟩ := served_sound e3
      exact ⟨f1, f2, f3, f4⟩
  have acts : ∀ m, (∀ b, ρ.act m = .peer b → Remote.Reserved (bs "/sysinfoaction") (bs "1") (ρ.st m).peer b ∧ ∀ c n, b ≠ .bus (.createChild c n)) ∧
      (∀ b, ρ.act m = .sys (.world b) → Action.Honest (bs "/sysinfoaction") (bs "1") 0 (ρ.st m).sys.world b ∧ ∀ c n, b ≠ .bus (.createChild c n)) := by
    intro m
    by_cases hm : m < as.length
    · exact expected_sound (e5 m hm).2
    · refine expected_sound ?_
      rw [(later m (by omega)).2]
      unfold restAct
      split <;> rfl
  have mono : ∀ m, Action.Mono (ρ'.st m).peer τ.peer := by
    intro m
    have h1 := Action.Endless.mono (ρ := ρ'.flat.host false) (Nat.le_max_left m (as.length + 1))
    have h1 : Action.Mono (ρ'.st m).peer (ρ'.st (max m (as.length + 1))).peer := h1
    have : ρ'.st (max m (as.length + 1)) = ρ.st (max m (as.length + 1) - 1) := by
      rw [show max m (as.length + 1) = (max m (as.length + 1) - 1) + 1 by omega]; rfl
    rw [this, (later _ (by omega)).1] at h1
    exact ⟨h1.log, h1.evs, h1.asked, h1.threw, h1.cons, h1.provs, h1.frames⟩
  simp only [ready, Bool.and_eq_true, beq_iff_eq, List.isEmpty_iff, decide_eq_true_eq] at hr
  obtain ⟨⟨⟨⟨⟨⟨⟨⟨⟨⟨⟨⟨⟨⟨b1, b2⟩, b3⟩, b4⟩, b5⟩, b6⟩, b7⟩, b8⟩, b9⟩, b10⟩, b11⟩, b12⟩, b13⟩, b14⟩, b15⟩ := hr
  obtain ⟨x, hx, x1⟩ := List.map_eq_singleton_iff.1 b1
  obtain ⟨y, hy, y1⟩ := List.map_eq_singleton_iff.1 b2
  simp only [Prod.mk.injEq] at x1 y1
  obtain ⟨x1, x2, x3⟩ := x1
  obtain ⟨y1, y2⟩ := y1
  refine ⟨ρ', x, y, 1, hreach.1, hreach.2, rfl, by show σ₀.peer.cons[0]? = _; rw [hx]; rfl, x1, b3,
    by show σ₀.sys.world.provs[0]? = _; rw [hy]; rfl, ?_, ?_, ⟨b12, b13⟩, ⟨?_, ?_⟩, ?_, ?_, ⟨?_, ?_, ?_, ?_, ?_, ?_⟩, ?_, by show σ₀.peer.frames.length = 0; rw [b14]; rfl, ?_, e6⟩
  · refine ⟨⟨?_, ?_, ?_⟩, ⟨?_, ?_, ?_⟩, fun r => ?_⟩
    · show ∀ m ∈ σ₀.peer.bus.inflight ++ σ₀.peer.bus.published, _; rw [b4]; simp
    · show ∀ m ∈ σ₀.peer.asked, _; rw [b5]; simp
    · show ∀ m ∈ σ₀.peer.replied, _; rw [b6]; simp
    · show ∀ m ∈ σ₀.sys.world.bus.inflight ++ σ₀.sys.world.bus.published, _; rw [b7]; simp
    · show ∀ m ∈ σ₀.sys.world.asked, _; rw [b8]; simp
    · show ∀ m ∈ σ₀.sys.world.replied, _; rw [b9]; simp
    · show ∀ m ∈ σ₀.way r, _
      cases r
      · rw [b10]; simp
      · rw [b11]; simp
  · show σ₀.peer.bus.phase ≠ .off ∧ σ₀.sys.world.bus.phase ≠ .off
    split at b15
    · cases b15
    · cases b15
    · rename_i g1 g2; exact ⟨fun e => g1 e, fun e => g2 e⟩
  · intro n
    refine ⟨2 * n + as.length + 1, by omega, .go, ?_⟩
    show ρ.act (2 * n + as.length) = _
    rw [(later _ (by omega)).2, show 2 * n + as.length - as.length = 2 * n by omega]
    simp [restAct, turn]
  · intro n
    refine ⟨2 * n + 1 + as.length + 1, by omega, .inr ⟨.go, ?_⟩⟩
    show ρ.act (2 * n + 1 + as.length) = _
    rw [(later _ (by omega)).2, show 2 * n + 1 + as.length - as.length = 2 * n + 1 by omega]
    have : (2 * n + 1) % 2 = 1 := by omega
    simp [restAct, turn, this]
  · refine Endless.prompt_of_flat (Remote.Endless.prompt_of_empty (fun n => ⟨n + as.length + 1, by omega, fun r => ?_⟩))
    have e : ρ'.st (n + as.length + 1) = dozing τ n := by
      show ρ.st (n + as.length) = _
      rw [(later _ (by omega)).1, show n + as.length - as.length = n by omega]
    have e' : ρ'.flat.st (n + as.length + 1) = plain (dozing τ n) := by show plain (ρ'.st _) = _; rw [e]
    rw [e']
    cases r
    · exact ⟨hrest.calls.1.1, hrest.calls.1.2, hrest.way false⟩
    · exact ⟨hrest.calls.2.1, hrest.calls.2.2, hrest.way true⟩
  · intro n hn b name
    have : ρ'.act n = ρ.act (n - 1) := by
      rw [show n = (n - 1) + 1 by omega]; rfl
    rw [this]
    exact ⟨fun e => ((acts (n - 1)).1 _ e).2 b name rfl, fun e => ((acts (n - 1)).2 _ e).2 b name rfl⟩
  all_goals first
    | (intro m hm
       obtain ⟨k, rfl⟩ := Nat.exists_eq_add_of_lt hm
       rw [Nat.zero_add]
       first
         | exact (fine k).up
         | (rw [x2, y1]; exact (fine k).live)
         | (rw [x3, y2]; exact (fine k).heard)
         | exact fun b e => ((acts k).1 b e).1
         | exact fun b e => ((acts k).2 b e).1
         | exact (fine k).strings)
    | skip
  · intro m
    unfold Distinct
    exact List.Nodup.sublist ((mono m).asked.sublist.map _) hdist
  · intro n
    refine ⟨n + as.length + 1, by omega, fun hn => .inr (.inr ?_)⟩
    have e : ρ'.st (n + as.length + 1) = dozing τ n := by
      show ρ.st (n + as.length) = _
      rw [(later _ (by omega)).1, show n + as.length - as.length = n by omega]
    rw [e]
    rcases hfr with hf | hf
    · exfalso
      obtain ⟨g, hg⟩ : ∃ g, (ρ'.st n).peer.frames[0]? = some g := ⟨_, List.getElem?_eq_getElem hn⟩
      obtain ⟨g', hg', -⟩ := (mono n).frames 0 g hg
      rw [hf] at hg'; cases hg'
    · exact hf

end LP.SysRemote
