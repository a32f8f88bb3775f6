import Verif.Lemma.SysRemotePlay
/-!
# C136: the action of the SysInfo plugin requested from another host
-/
namespace LP.SysRemote
open LP.Remote (End)
open LP.Action (Next Cons Prov Ev Distinct answers)

variable {ends : Bool → End}

theorem fresh_plain {σ : St} {id : Str} (h : Fresh σ id) : Remote.Fresh (plain σ) id := fun r => by
  cases r with
  | false => exact ⟨h.1, h.2.2 false⟩
  | true => exact ⟨h.2.1, h.2.2 true⟩

theorem reach_plain {σ : St} (h0 : Action.Reachable σ.peer) (h : SysInfo.Reachable σ.sys) : ∀ r, Action.Reachable ((plain σ).host r) := fun r => by
  cases r with
  | false => exact h0
  | true => exact h.world

/-- The rest of the example of an asynchronous request: it is sent while the plugin publishes a count of its own. -/
def courseAsync : List Act :=
  let go := List.replicate (α := Act)
  [.sys .beat, .peer (.send 0), .peer (.bus (.push 0)), .sys (.world (.bus (.push 0)))] ++ go 8 (.peer (.run .go)) ++ [.receive true
    0, .sys (.world (.bus (.push 0)))] ++ go 9 (.peer (.run .go)) ++ go 7 (.sys (.world (.run .go))) ++ [.receive false 0, .peer (.bus
    (.push 0))] ++ go 17 (.peer (.run .go)) ++ go 2 (.sys (.world (.run .go))) ++ [.sys .code] ++ go 11 (.sys (.world (.run .go))) ++
    [.sys .code, .sys (.world (.bus (.push 0))), .sys .code] ++ go 12 (.sys (.world (.run .go))) ++ [.receive false 0, .peer (.bus
    (.push 0))] ++ go 18 (.peer (.run .go)) ++ go 11 (.sys (.world (.run .go)))

/-- The rest of the example of a blocking request. -/
def courseBlocking : List Act :=
  let go := List.replicate (α := Act)
  [.peer (.send 0)] ++ go 2 (.peer (.wait 0)) ++ [.peer (.bus (.push 0))] ++ go 8 (.peer (.run .go)) ++ [.receive true 0, .sys
    (.world (.bus (.push 0)))] ++ go 9 (.peer (.run .go)) ++ go 10 (.sys (.world (.run .go))) ++ [.sys .code, .sys (.world (.bus
    (.push 0))), .sys .code] ++ go 12 (.sys (.world (.run .go))) ++ [.receive false 0, .peer (.bus (.push 0))] ++ go 7 (.peer (.run
    .go)) ++ go 4 (.peer .lambda) ++ go 11 (.peer (.run .go)) ++ go 11 (.sys (.world (.run .go))) ++ [.peer (.wait 0)]

/-- **C136.** Whatever a consumer on another host requests, and whatever else happens on the two hosts and between them, from some moment
on its callback has been called for the request exactly once, with the plugin's response. -/
theorem C136_answered (ρ : Endless ends) (n c p k T : Nat) (id : Str) (t : Tree) (x : Cons) (y : Prov)
    (h0 : Action.Reachable (ρ.st 0).peer) (h : SysInfo.Reachable (ρ.st 0).sys) (ha : ρ.act n = .peer (.request c id k t))
    (hx : (ρ.st n).peer.cons[c]? = some x) (hT : x.topic = bs "/sysinfoaction") (hp : (ρ.st n).sys.prov = some p)
    (hy : (ρ.st n).sys.world.provs[p]? = some y) (hfresh : Fresh (ρ.st n) id)
    (hon : (ρ.st n).peer.bus.phase ≠ .off ∧ (ρ.st n).sys.world.bus.phase ≠ .off)
    (hend : (ends false).sub < (ρ.st n).peer.bus.w.ns ∧ (ends true).sub < (ρ.st n).sys.world.bus.w.ns)
    (hf : ρ.Fair) (hpr : ρ.Prompt) (hN : ρ.NoNewBuses T) (hs : ρ.Served n x y p id) (hd : ∀ m, Distinct (ρ.st m).peer) :
    ∃ m, ∀ m', m ≤ m' → answers c id (ρ.st m').peer.evs = [.answered c id (.user k) (.value (.str (bs "This is the response message.")))] := by
  obtain ⟨y', hy', yT, yS, yC⟩ := (Endless.reach h n).inv.1.prov p hp
  rw [hy] at hy'; cases hy'
  exact Remote.C133_answered ρ.flat n false c p T id k t (fun _ => SysInfo.reply) x y (reach_plain h0 h) (by simp [Endless.flat, ha, under]) hx hy
    (hT.trans yT.symm) (by rw [yC]; simp) (fresh_plain hfresh) (fun r => match r with | false => hon.1 | true => hon.2)
    (fun r => match r with | false => hend.1 | true => hend.2) (Endless.fair_flat h hf) (Endless.prompt_flat hpr) (Endless.noNewBuses_flat hN)
    (Endless.served_flat h hs hp yT) (Endless.answers_flat h hf hp) hd

/-- Concrete case: such a request while the plugin publishes, and the rest for ever after. -/
example : ∃ ρ : Endless eastWest, ∃ x y T, Action.Reachable (ρ.st 0).peer ∧ SysInfo.Reachable (ρ.st 0).sys ∧
    ρ.act 0 = .peer (.request 0 (bs "1") 5 (.value (.int 7))) ∧ (ρ.st 0).peer.cons[0]? = some x ∧ x.topic = bs "/sysinfoaction" ∧
    (ρ.st 0).sys.prov = some 0 ∧ (ρ.st 0).sys.world.provs[0]? = some y ∧ Fresh (ρ.st 0) (bs "1") ∧
    ((ρ.st 0).peer.bus.phase ≠ .off ∧ (ρ.st 0).sys.world.bus.phase ≠ .off) ∧
    ((eastWest false).sub < (ρ.st 0).peer.bus.w.ns ∧ (eastWest true).sub < (ρ.st 0).sys.world.bus.w.ns) ∧ ρ.Fair ∧ ρ.Prompt ∧ ρ.NoNewBuses T ∧
    ρ.Served 0 x y 0 (bs "1") ∧ (∀ m, Distinct (ρ.st m).peer) ∧ ∀ m, m < courseAsync.length → courseAsync[m]? = some (ρ.act (m + 1)) := by
  obtain ⟨ρ, x, y, T, h1, h2, h3, h4, h5, h6, h7, h8, h9, h10, h11, h12, h13, h14, h15, -, -, h18⟩ :=
    sample (.peer (.request 0 (bs "1") 5 (.value (.int 7)))) courseAsync (by decide +kernel)
  exact ⟨ρ, x, y, T, h1, h2, h3, h4, h5, h6, h7, h8, h9, h10, h11, h12, h13, h14, h15, h18⟩

/-- **C136.** A blocking `Request`, made outside the bus thread, returns the plugin's response. -/
theorem C136_blocking (ρ : Endless ends) (n c p T : Nat) (id : Str) (t : Tree) (x : Cons) (y : Prov)
    (h0 : Action.Reachable (ρ.st 0).peer) (h : SysInfo.Reachable (ρ.st 0).sys) (ha : ρ.act n = .peer (.begin c id t false))
    (hx : (ρ.st n).peer.cons[c]? = some x) (hT : x.topic = bs "/sysinfoaction") (hp : (ρ.st n).sys.prov = some p)
    (hy : (ρ.st n).sys.world.provs[p]? = some y) (hfresh : Fresh (ρ.st n) id)
    (hon : (ρ.st n).peer.bus.phase ≠ .off ∧ (ρ.st n).sys.world.bus.phase ≠ .off)
    (hend : (ends false).sub < (ρ.st n).peer.bus.w.ns ∧ (ends true).sub < (ρ.st n).sys.world.bus.w.ns)
    (hf : ρ.Fair) (hpr : ρ.Prompt) (hN : ρ.NoNewBuses T) (hs : ρ.Served n x y p id) (hd : ∀ m, Distinct (ρ.st m).peer)
    (hw : ρ.Awake (ρ.st n).peer.frames.length) :
    ∃ m, ∀ m', m ≤ m' → ∃ g, (ρ.st m').peer.frames[(ρ.st n).peer.frames.length]? = some g ∧ g.cons = c ∧ g.id = id ∧
      g.pc = .done ∧ g.result = some (.value (.str (bs "This is the response message."))) := by
  obtain ⟨y', hy', yT, yS, yC⟩ := (Endless.reach h n).inv.1.prov p hp
  rw [hy] at hy'; cases hy'
  exact Remote.C133_blocking ρ.flat n false c p T id t (fun _ => SysInfo.reply) x y (reach_plain h0 h) (by simp [Endless.flat, ha, under]) hx hy
    (hT.trans yT.symm) (by rw [yC]; simp) (fresh_plain hfresh) (fun r => match r with | false => hon.1 | true => hon.2)
    (fun r => match r with | false => hend.1 | true => hend.2) (Endless.fair_flat h hf) (Endless.prompt_flat hpr) (Endless.noNewBuses_flat hN)
    (Endless.served_flat h hs hp yT) (Endless.answers_flat h hf hp) hd (Endless.awake_flat hw)

/-- Concrete case: a blocking request, whose thread waits twice before the response arrives. -/
example : ∃ ρ : Endless eastWest, ∃ x y T, Action.Reachable (ρ.st 0).peer ∧ SysInfo.Reachable (ρ.st 0).sys ∧
    ρ.act 0 = .peer (.begin 0 (bs "1") (.value (.int 7)) false) ∧ (ρ.st 0).peer.cons[0]? = some x ∧ x.topic = bs "/sysinfoaction" ∧
    (ρ.st 0).sys.prov = some 0 ∧ (ρ.st 0).sys.world.provs[0]? = some y ∧ Fresh (ρ.st 0) (bs "1") ∧
    ((ρ.st 0).peer.bus.phase ≠ .off ∧ (ρ.st 0).sys.world.bus.phase ≠ .off) ∧
    ((eastWest false).sub < (ρ.st 0).peer.bus.w.ns ∧ (eastWest true).sub < (ρ.st 0).sys.world.bus.w.ns) ∧ ρ.Fair ∧ ρ.Prompt ∧ ρ.NoNewBuses T ∧
    ρ.Served 0 x y 0 (bs "1") ∧ (∀ m, Distinct (ρ.st m).peer) ∧ ρ.Awake (ρ.st 0).peer.frames.length ∧
    ∀ m, m < courseBlocking.length → courseBlocking[m]? = some (ρ.act (m + 1)) := by
  obtain ⟨ρ, x, y, T, h1, h2, h3, h4, h5, h6, h7, h8, h9, h10, h11, h12, h13, h14, h15, h16, h17, h18⟩ :=
    sample (.peer (.begin 0 (bs "1") (.value (.int 7)) false)) courseBlocking (by decide +kernel)
  exact ⟨ρ, x, y, T, h1, h2, h3, h4, h5, h6, h7, h8, h9, h10, h11, h12, h13, h14, h15, by rw [h16]; exact h17, h18⟩

/-- A destroyed instance stays destroyed, and answers nothing. -/
theorem dead {ρ : Endless ends} {n p : Nat} (h : SysInfo.Reachable (ρ.st 0).sys) (hp : (ρ.st n).sys.prov = some p)
    (hl : (ρ.st n).sys.life = .destroyed) (k : Nat) : (ρ.st (n + k)).sys.life = .destroyed ∧
      (SysInfo.responded p (ρ.st (n + k)).sys.world.replied).map Prod.fst <+: (SysInfo.responded p (ρ.st n).sys.world.replied).map Prod.fst := by
  induction k with
  | zero => exact ⟨hl, List.prefix_refl _⟩
  | succ k ih =>
    rw [← Nat.add_assoc]
    have hpk := Endless.prov h hp k
    rcases sys_step (ρ.ok (n + k)) with ⟨b, e, -⟩ | ⟨e, -⟩
    · generalize (ρ.st (n + k + 1)).sys = τ at e
      have hi := ih.1
      cases SysInfo.step_eff e with
      | world a w g1 g2 g3 =>
        refine ⟨hi, ?_⟩
        have : (SysInfo.responded p w.replied) = SysInfo.responded p (ρ.st (n + k)).sys.world.replied := by
          have hne := (SysInfo.touches_sub g1).2.2 p hpk
          cases Action.step_eff g3 with
          | respond p' id t z b h1 h2 =>
            have : p' ≠ p := fun e => hne id t (by rw [e])
            simp [SysInfo.responded, this]
          | endCb c b g1 g2 g3 g4 g5 => rw [(Action.endCb_same _ b c).2.2.2.2.2.2.2.2]
          | deliver c b d' g1 g2 g3 g4 g5 g6 => rw [(Action.dispatch_same _ d').2.2.2.2.2.2.2.1]
          | _ => rfl
        simpa [this] using ih.2
      | init0 w g1 => rw [hi] at g1; cases g1
      | init1 w g1 => rw [hi] at g1; cases g1
      | init2 w g1 => rw [hi] at g1; cases g1
      | init3 w g1 => rw [hi] at g1; cases g1
      | init4 s q w g1 => rw [hi] at g1; cases g1
      | beat q w g1 => rw [hi] at g1; cases g1
      | unsub s w g1 => rw [hi] at g1; cases g1
      | unpub s w g1 => rw [hi] at g1; cases g1
      | destroy g1 => rw [hi] at g1; cases g1
      | respond p id w g1 g2 g3 g4 => exact absurd hi g4
      | leave p id w g1 g2 g3 g4 => exact absurd hi g4
      | heard d w g1 g2 g3 g4 => exact absurd hi g4
    · rw [e]; exact ih

/-- **C136.** After the destruction of the instance (SysInfo.cpp:61-68 does not take the action back) there is no such execution: a request
from another host leads to undefined behaviour. -/
theorem C136_unloaded (ρ : Endless ends) (n c p k T : Nat) (id : Str) (t : Tree) (x : Cons) (y : Prov)
    (h0 : Action.Reachable (ρ.st 0).peer) (h : SysInfo.Reachable (ρ.st 0).sys) (ha : ρ.act n = .peer (.request c id k t))
    (hx : (ρ.st n).peer.cons[c]? = some x) (hT : x.topic = bs "/sysinfoaction") (hp : (ρ.st n).sys.prov = some p)
    (hy : (ρ.st n).sys.world.provs[p]? = some y) (hfresh : Fresh (ρ.st n) id)
    (hon : (ρ.st n).peer.bus.phase ≠ .off ∧ (ρ.st n).sys.world.bus.phase ≠ .off)
    (hend : (ends false).sub < (ρ.st n).peer.bus.w.ns ∧ (ends true).sub < (ρ.st n).sys.world.bus.w.ns)
    (hf : ρ.Fair) (hpr : ρ.Prompt) (hN : ρ.NoNewBuses T) (hs : ρ.Served n x y p id) : (ρ.st n).sys.life ≠ .destroyed := by
  intro hl
  obtain ⟨y', hy', yT, yS, yC⟩ := (Endless.reach h n).inv.1.prov p hp
  rw [hy] at hy'; cases hy'
  obtain ⟨m, k', hk⟩ := Remote.C133_shown ρ.flat n false c p T id k t (fun _ => SysInfo.reply) x y (reach_plain h0 h)
    (by simp [Endless.flat, ha, under]) hx hy
    (hT.trans yT.symm) (by rw [yC]; simp) (fresh_plain hfresh) (fun r => match r with | false => hon.1 | true => hon.2)
    (fun r => match r with | false => hend.1 | true => hend.2) (Endless.fair_flat h hf) (Endless.prompt_flat hpr) (Endless.noNewBuses_flat hN)
    (Endless.served_flat h hs hp yT)
  have hk2 := (Action.Endless.mono (ρ := ρ.flat.host true) (Nat.le_max_left m n)).evs.subset hk
  obtain ⟨j, hj⟩ := Nat.exists_eq_add_of_le (Nat.le_max_right m n)
  rw [hj] at hk2
  have hk3 : Ev.requested p k' id (Action.envelope (bs "request") id t.wire) ∈ (ρ.st (n + j)).sys.world.evs := hk2
  obtain ⟨d1, d2⟩ := dead h hp hl j
  have hpj := Endless.prov h hp j
  have hmem := SysInfo.requested_mem.2 ⟨k', _, hk3⟩
  rw [(Endless.reach h (n + j)).inv.2.book p hpj, List.mem_append] at hmem
  rcases hmem with hmem | hmem
  · obtain ⟨r, hr1, hr2⟩ := List.mem_map.1 (d2.subset hmem)
    exact hfresh.2.1.2.2 _ (SysInfo.responded_mem.1 hr1) hr2
  · have hmine : SysInfo.mine (ρ.st (n + j)).sys = true := by
      split at hmem
      · simp at hmem
      · cases hc : (ρ.st (n + j)).sys.world.cur with
        | providing p' id' =>
          rw [hc] at hmem
          simp only [Action.showing] at hmem
          split at hmem
          · rename_i e; subst e; simp [SysInfo.mine, hc, hpj]
          · simp at hmem
        | _ => rw [hc] at hmem; simp [Action.showing] at hmem
    obtain ⟨i, i1, i2, -⟩ := Endless.goes_on h hf hmine
    have hl' := (dead h hp hl (j + i)).1
    rw [← Nat.add_assoc] at hl'
    have := Endless.code_step i1
    simp [SysInfo.step, SysInfo.codeStep, i2, hl'] at this

/-- Events one after the other, from which on the first outcome that is not a state is the outcome. -/
def outcome (ends : Bool → End) : Next St → List Act → Next St
  | .to σ, a :: as => outcome ends (step ends σ a) as
  | o, _ => o

/-- The beginning, the instance unloaded, and a request from the other host. -/
def courseUnloaded : List Act :=
  let go := List.replicate (α := Act)
  [.sys .deinit, .sys .deinit, .sys .destroy, .peer (.request 0 (bs "1") 5 (.value (.int 7))), .peer (.send 0), .peer (.bus (.push 0))] ++
    go 8 (.peer (.run .go)) ++ [.receive true 0, .sys (.world (.bus (.push 0)))] ++ go 9 (.sys (.world (.run .go))) ++ [.sys .code]

/-- Concrete case of what happens instead: the second host's bus thread executes the lambda of the destroyed instance. -/
theorem C136_unloaded_witness : ∃ σ, begin = some σ ∧ Action.Reachable σ.peer ∧ SysInfo.Reachable σ.sys ∧
    outcome eastWest (.to σ) courseUnloaded = .undefined ∧
    ∃ τ, outcome eastWest (.to σ) courseUnloaded.dropLast = .to τ ∧ τ.sys.life = .destroyed := by
  have h : (match begin with
    | none => false
    | some σ => (match outcome eastWest (.to σ) courseUnloaded with | .undefined => true | _ => false) &&
      (match outcome eastWest (.to σ) courseUnloaded.dropLast with | .to τ => decide (τ.sys.life = .destroyed) | _ => false)) = true := by decide +kernel
  cases hb : begin with
  | none => rw [hb] at h; cases h
  | some σ =>
    rw [hb] at h
    simp only [Bool.and_eq_true] at h
    obtain ⟨h1, h2⟩ := h
    have hreach : Action.Reachable σ.peer ∧ SysInfo.Reachable σ.sys := by
      simp only [begin, Option.bind_eq_some_iff, Option.map_eq_some_iff] at hb
      obtain ⟨p, hp, s, hs, rfl⟩ := hb
      exact ⟨Action.play_reachable hp, SysInfo.play_reachable hs⟩
    refine ⟨σ, rfl, hreach.1, hreach.2, ?_, ?_⟩
    · split at h1
      · assumption
      · cases h1
    · split at h2
      · rename_i τ e; exact ⟨τ, e, by simpa using h2⟩
      · cases h2

end LP.SysRemote
