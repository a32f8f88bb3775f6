import Verif.Spec.SysRemote
import Verif.Lemma.RemoteEndless
import Verif.Prop.SysInfo
/-!
# The SysInfo plugin on another host: an execution of `Verif.Model.SysRemote` is one of `Verif.Model.Remote`
-/
namespace LP.SysRemote
open LP.Remote (End put hop sends Up Heard)
open LP.Action (Cons Prov Ev)

/-- The two hosts. -/
def plain (σ : St) : Remote.St := ⟨fun r => if r then σ.sys.world else σ.peer, σ.way⟩

/-- The event of the two hosts behind an event; destroying the plugin is written as the reset of a provider that does not exist. -/
def under (σ : St) : Act → Remote.Act
  | .peer a => .act false a
  | .sys a => .act true ((SysInfo.under σ.sys a).getD (.resetProvider σ.sys.world.provs.length))
  | .receive s i => .receive s i

theorem plain_put_sys (σ : St) (τ : SysInfo.St) (w : Bool → List Bus.BMsg) :
    plain ⟨σ.peer, τ, w⟩ = ⟨put (plain σ).host true τ.world, w⟩ := by
  simp only [plain]
  congr 1
  funext r
  cases r <;> simp [put]

theorem plain_put_peer (σ : St) (τ : Action.St) (w : Bool → List Bus.BMsg) :
    plain ⟨τ, σ.sys, w⟩ = ⟨put (plain σ).host false τ, w⟩ := by
  simp only [plain]
  congr 1
  funext r
  cases r <;> simp [put]

variable {ends : Bool → End}

/-- What a step does to the plugin's host. -/
theorem sys_step {σ σ' : St} {a : Act} (h : step ends σ a = .to σ') :
    (∃ b, SysInfo.step σ.sys b = .to σ'.sys ∧ (a = .sys b ∨ ∃ i x m, a = .receive true i ∧ b = .world (.bus (.publish x m)))) ∨
    σ'.sys = σ.sys ∧ (∀ b, a ≠ .sys b) := by
  cases a with
  | peer a => simp only [step] at h; split at h <;> cases h; exact .inr ⟨rfl, fun b => by simp⟩
  | sys a => simp only [step] at h; split at h <;> cases h; rename_i τ e; exact .inl ⟨a, e, .inl rfl⟩
  | receive s i =>
    cases s with
    | false =>
      simp only [step] at h
      split at h
      · cases h
      · split at h <;> cases h; exact .inr ⟨rfl, fun b => by simp⟩
    | true =>
      simp only [step] at h
      split at h
      · cases h
      · split at h <;> cases h
        rename_i τ e; exact .inl ⟨_, e, .inr ⟨i, _, _, rfl, rfl⟩⟩

theorem of_sys {σ σ' : St} {a : SysInfo.Act} (h : step ends σ (.sys a) = .to σ') : SysInfo.step σ.sys a = .to σ'.sys := by
  simp only [step] at h
  split at h <;> cases h
  assumption

theorem sys_world {τ τ' : SysInfo.St} {a : SysInfo.Act} (h : SysInfo.step τ a = .to τ') :
    Action.step τ.world ((SysInfo.under τ a).getD (.resetProvider τ.world.provs.length)) = .to τ'.world := by
  rcases SysInfo.under_step h with ⟨e, hw⟩ | ⟨x, e, hw⟩
  · rw [e, hw]; exact Remote.Endless.nothing _
  · rw [e]; exact hw

theorem under_step {σ σ' : St} {a : Act} (h : step ends σ a = .to σ') : Remote.step ends (plain σ) (under σ a) = .to (plain σ') := by
  cases a with
  | peer a =>
    simp only [step] at h
    split at h <;> cases h
    rename_i τ e
    have e' : Action.step ((plain σ).host false) a = .to τ := e
    simp only [under, Remote.step, e', plain_put_peer]
    rfl
  | sys a =>
    simp only [step] at h
    split at h <;> cases h
    rename_i τ e
    have e' : Action.step ((plain σ).host true) ((SysInfo.under σ.sys a).getD (.resetProvider σ.sys.world.provs.length)) = .to τ.world := sys_world e
    simp only [under, Remote.step, e', plain_put_sys]
    rfl
  | receive s i =>
    cases s with
    | false =>
      simp only [step] at h
      split at h
      · cases h
      · rename_i m hm
        split at h <;> cases h
        rename_i τ e
        have e' : Action.step ((plain σ).host false) (.bus (.publish (ends false).bus (Net.arrive (hop ends false) m))) = .to τ := e
        have hm' : ((plain σ).way false)[i]? = some m := hm
        simp only [under, Remote.step, hm', e', plain_put_peer]
        rfl
    | true =>
      simp only [step] at h
      split at h
      · cases h
      · rename_i m hm
        split at h <;> cases h
        rename_i τ e
        have e' : Action.step ((plain σ).host true) (.bus (.publish (ends true).bus (Net.arrive (hop ends true) m))) = .to τ.world := by
          have := sys_world e
          exact this
        have hm' : ((plain σ).way true)[i]? = some m := hm
        simp only [under, Remote.step, hm', e', plain_put_sys]
        rfl

namespace Endless
variable {ρ : Endless ends}

/-- The execution of the two hosts. -/
def flat (ρ : Endless ends) : Remote.Endless ends :=
  ⟨fun n => plain (ρ.st n), fun n => under (ρ.st n) (ρ.act n), fun n => under_step (ρ.ok n)⟩

theorem reach (h : SysInfo.Reachable (ρ.st 0).sys) (n : Nat) : SysInfo.Reachable (ρ.st n).sys := by
  induction n with
  | zero => exact h
  | succ n ih =>
    rcases sys_step (ρ.ok n) with ⟨b, e, -⟩ | ⟨e, -⟩
    · exact ih.step e
    · rw [e]; exact ih

theorem prov (h : SysInfo.Reachable (ρ.st 0).sys) {n p : Nat} (hp : (ρ.st n).sys.prov = some p) (k : Nat) : (ρ.st (n + k)).sys.prov = some p := by
  induction k with
  | zero => exact hp
  | succ k ih =>
    rcases sys_step (ρ.ok (n + k)) with ⟨b, e, -⟩ | ⟨e, -⟩
    · exact SysInfo.prov_step (reach h _) ih e
    · rw [← Nat.add_assoc, e]; exact ih

/-- As long as the bus thread is in one of the plugin's lambdas and does not go on, nothing changes there. -/
theorem waits (h : SysInfo.Reachable (ρ.st 0).sys) {n : Nat} (hm : SysInfo.mine (ρ.st n).sys = true) (k : Nat)
    (hc : ∀ j, j < k → ρ.act (n + j) ≠ .sys .code) :
    SysInfo.mine (ρ.st (n + k)).sys = true ∧ (ρ.st (n + k)).sys.world.cur = (ρ.st n).sys.world.cur ∧ (ρ.st (n + k)).sys.said = (ρ.st n).sys.said := by
  induction k with
  | zero => exact ⟨hm, rfl, rfl⟩
  | succ k ih =>
    obtain ⟨i1, i2, i3⟩ := ih (fun j hj => hc j (by omega))
    rcases sys_step (ρ.ok (n + k)) with ⟨b, e, hb⟩ | ⟨e, -⟩
    · have : b ≠ .code := by
        rcases hb with hb | ⟨i, x, m, hb, hb'⟩
        · rintro rfl; exact hc k (by omega) hb
        · rw [hb']; simp
      obtain ⟨m1, m2, -, -, m5⟩ := SysInfo.mine_stays (reach h _) i1 this e
      exact ⟨m1, m2.trans i2, m5.trans i3⟩
    · rw [← Nat.add_assoc, e]; exact ⟨i1, i2, i3⟩

/-- There is a first moment from `n` on at which the bus thread of the plugin's host goes on. -/
theorem first (hf : ρ.Fair) (n : Nat) : ∃ k, (ρ.act (n + k) = .sys .code ∨ ∃ c, ρ.act (n + k) = .sys (.world (.run c))) ∧
    ∀ j, j < k → ρ.act (n + j) ≠ .sys .code := by
  obtain ⟨m, hm, h⟩ := hf.2 n
  obtain ⟨d, rfl⟩ := Nat.exists_eq_add_of_le hm
  clear hm
  induction d using Nat.strongRecOn with
  | _ d ih =>
    by_cases hc : ∃ j, j < d ∧ ρ.act (n + j) = .sys .code
    · obtain ⟨j, hj, e⟩ := hc
      exact ih j hj (.inl e)
    · exact ⟨d, h, fun j hj e => hc ⟨j, hj, e⟩⟩

/-- Inside a lambda of the plugin the bus thread executes it at some time. -/
theorem goes_on (h : SysInfo.Reachable (ρ.st 0).sys) (hf : ρ.Fair) {n : Nat} (hm : SysInfo.mine (ρ.st n).sys = true) :
    ∃ k, ρ.act (n + k) = .sys .code ∧ SysInfo.mine (ρ.st (n + k)).sys = true ∧ (ρ.st (n + k)).sys.world.cur = (ρ.st n).sys.world.cur ∧
      (ρ.st (n + k)).sys.said = (ρ.st n).sys.said := by
  obtain ⟨k, hk, hj⟩ := first hf n
  obtain ⟨w1, w2, w3⟩ := waits h hm k hj
  rcases hk with hk | ⟨c, hk⟩
  · exact ⟨k, hk, w1, w2, w3⟩
  · have := ρ.ok (n + k)
    rw [hk] at this
    simp [step, SysInfo.step, w1, SysInfo.byCallback] at this

theorem code_step {n : Nat} (hc : ρ.act n = .sys .code) : SysInfo.step (ρ.st n).sys .code = .to (ρ.st (n + 1)).sys := by
  have := ρ.ok n
  rw [hc] at this
  exact of_sys this

theorem fair_flat (h : SysInfo.Reachable (ρ.st 0).sys) (hf : ρ.Fair) : ρ.flat.Fair := by
  intro r n
  cases r with
  | false =>
    obtain ⟨m, hm, c, e⟩ := hf.1 n
    exact ⟨m, hm, c, by simp [flat, e, under]⟩
  | true =>
    -- executing a lambda once more ends it
    have key : ∀ n, ρ.act n = .sys .code → ∃ m, n ≤ m ∧ ∃ c, ρ.flat.act m = .act true (.run c) := by
      intro n hc
      have hs := code_step hc
      generalize hτ : (ρ.st (n + 1)).sys = τ at hs
      cases SysInfo.step_eff hs with
      | respond p id w g1 g2 g3 g4 g5 =>
        have hs1 : (ρ.st (n + 1)).sys.said = true := by rw [hτ]
        obtain ⟨p', id', e1, e2⟩ := (reach h (n + 1)).inv.2.said hs1
        have hm : SysInfo.mine (ρ.st (n + 1)).sys = true := by simp [SysInfo.mine, e2, e1]
        obtain ⟨k, k1, k2, k3, k4⟩ := goes_on h hf hm
        refine ⟨n + 1 + k, by omega, .go, ?_⟩
        simp only [flat, k1, under, SysInfo.under, k3, e2, k4, hs1, if_true, Option.getD_some]
      | leave p id w g1 g2 g3 g4 g5 =>
        exact ⟨n, Nat.le_refl n, .go, by simp only [flat, hc, under, SysInfo.under, g1, g3, if_true, Option.getD_some]⟩
      | heard d w g1 g2 g3 g4 g5 =>
        exact ⟨n, Nat.le_refl n, _, by simp only [flat, hc, under, SysInfo.under, g1, g2, Option.map, Option.getD_some]; rfl⟩
    obtain ⟨m, hm, hk | ⟨c, hk⟩⟩ := hf.2 n
    · obtain ⟨m', hm', hc⟩ := key m hk
      exact ⟨m', by omega, hc⟩
    · exact ⟨m, hm, c, by simp [flat, hk, under, SysInfo.under]⟩

theorem prompt_flat (hp : ρ.Prompt) : ρ.flat.Prompt := by
  refine ⟨fun r n m hm => ?_, fun r n m hm => ?_, fun r n m hm => ?_⟩
  · cases r with
    | false => obtain ⟨k, i, h1, h2, h3⟩ := hp.push n m hm; exact ⟨k, i, h1, h2, by simp [flat, h3, under]⟩
    | true => obtain ⟨k, i, h1, h2, h3⟩ := hp.sysPush n m hm; exact ⟨k, i, h1, h2, by simp [flat, h3, under, SysInfo.under]⟩
  · cases r with
    | false => obtain ⟨k, i, h1, h2, h3⟩ := hp.send n m hm; exact ⟨k, i, h1, h2, by simp [flat, h3, under]⟩
    | true => obtain ⟨k, i, h1, h2, h3⟩ := hp.sysSend n m hm; exact ⟨k, i, h1, h2, by simp [flat, h3, under, SysInfo.under]⟩
  · obtain ⟨k, i, h1, h2, h3⟩ := hp.cross r n m hm
    exact ⟨k, i, h1, h2, by simp [flat, h3, under]⟩

theorem noNewBuses_flat {T : Nat} (hT : ρ.NoNewBuses T) : ρ.flat.NoNewBuses T := by
  intro n hn r b name e
  obtain ⟨h1, h2⟩ := hT n hn b name
  simp only [flat] at e
  have hok := ρ.ok n
  cases ha : ρ.act n with
  | peer a => rw [ha] at e h1; simp only [under, Remote.Act.act.injEq] at e; exact h1 (by rw [e.2])
  | receive s i => rw [ha] at e; cases e
  | sys a =>
    rw [ha] at e h2 hok
    simp only [under, Remote.Act.act.injEq] at e
    obtain ⟨-, e⟩ := e
    have hs := of_sys hok
    generalize (ρ.st (n + 1)).sys = τ at hs
    cases SysInfo.step_eff hs with
    | world a w g1 g2 g3 => simp only [SysInfo.under, Option.getD_some] at e; exact h2 (by rw [e])
    | init0 w g1 g2 => simp [SysInfo.under, g1] at e
    | init1 w g1 g2 => simp [SysInfo.under, g1] at e
    | init2 w g1 g2 => simp [SysInfo.under, g1] at e
    | init3 w g1 g2 => simp [SysInfo.under, g1] at e
    | init4 s q w g1 g2 g3 g4 => simp [SysInfo.under, g1, g2, g3] at e
    | beat q w g1 g2 g3 g4 => simp [SysInfo.under, g3] at e
    | unsub s w g1 g2 g3 => simp [SysInfo.under, g1, g2] at e
    | unpub q w g1 g2 g3 => simp [SysInfo.under, g1, g2] at e
    | destroy g1 => simp [SysInfo.under] at e
    | respond p id w g1 g2 g3 g4 g5 => simp [SysInfo.under, g1, g3] at e
    | leave p id w g1 g2 g3 g4 g5 => simp [SysInfo.under, g1, g3] at e
    | heard d w g1 g2 g3 g4 g5 => simp [SysInfo.under, g1, g2] at e

theorem served_flat {n p : Nat} {x : Cons} {y : Prov} {id : Str} (h : SysInfo.Reachable (ρ.st 0).sys) (hs : ρ.Served n x y p id)
    (hp : (ρ.st n).sys.prov = some p) (hT : y.topic = bs "/sysinfoaction") : ρ.flat.Served n false x y p id (fun _ => SysInfo.reply) := by
  refine ⟨fun m hm r => ?_, fun m hm => hs.live m hm, fun m hm => hs.heard m hm, fun m hm => ?_⟩
  · cases r with
    | false => exact (hs.up m hm).1
    | true => exact (hs.up m hm).2
  · rw [hT]
    simp only [flat]
    have hpm : (ρ.st m).sys.prov = some p := by
      have := prov h hp (m - n)
      rwa [show n + (m - n) = m by omega] at this
    have hok := ρ.ok m
    cases ha : ρ.act m with
    | peer a => exact ⟨fun _ => hs.reserved m hm a ha, fun e => by cases e⟩
    | receive s i => exact trivial
    | sys a =>
      refine ⟨fun e => (by cases e), fun _ => ?_⟩
      rw [ha] at hok
      have hst := of_sys hok
      cases hu : SysInfo.under (ρ.st m).sys a with
      | none =>
        simp only [Option.getD_none]
        refine ⟨?_, fun id u e => by cases e⟩
        show (ρ.st m).sys.world.provs.length ≠ p
        obtain ⟨z, hz, -⟩ := (reach h m).inv.1.prov p hpm
        have := (List.getElem?_eq_some_iff.1 hz).1
        omega
      | some b =>
        simp only [Option.getD_some]
        refine SysInfo.under_honest (reach h m) hpm hst hu (fun y hy => hs.honest m hm y (by rw [ha, hy])) (fun msg hmsg ht => ?_)
        obtain ⟨s, e⟩ := hs.strings m hm msg hmsg ht
        rw [e]; rfl

theorem answers_flat {n p : Nat} {id : Str} (h : SysInfo.Reachable (ρ.st 0).sys) (hf : ρ.Fair) (hp : (ρ.st n).sys.prov = some p) :
    ρ.flat.Answers n true p id (fun _ => SysInfo.reply) := by
  intro m hm k t hk
  have hpm : (ρ.st m).sys.prov = some p := by
    have := prov h hp (m - n)
    rwa [show n + (m - n) = m by omega] at this
  have hr := reach h m
  have hmem : id ∈ SysInfo.requested p (ρ.st m).sys.world.evs := SysInfo.requested_mem.2 ⟨k, t, hk⟩
  rw [hr.inv.2.book p hpm, List.mem_append] at hmem
  rcases hmem with hmem | hmem
  · obtain ⟨r, hr1, hr2⟩ := List.mem_map.1 hmem
    have h2 := hr.inv.2.same p hpm r hr1
    have h3 := SysInfo.responded_mem.1 hr1
    refine ⟨m, hm, ?_⟩
    obtain ⟨r1, r2⟩ := r
    simp only at hr2 h2
    subst hr2 h2
    exact h3
  · split at hmem
    · simp at hmem
    · rename_i hsaid
      have hcur : (ρ.st m).sys.world.cur = .providing p id := by
        cases hc : (ρ.st m).sys.world.cur with
        | providing p' id' =>
          rw [hc] at hmem
          simp only [Action.showing] at hmem
          split at hmem
          · rename_i e; subst e; simp at hmem; rw [hmem]
          · simp at hmem
        | _ => rw [hc] at hmem; simp [Action.showing] at hmem
      have hmine : SysInfo.mine (ρ.st m).sys = true := by simp [SysInfo.mine, hcur, hpm]
      obtain ⟨j, j1, j2, j3, j4⟩ := goes_on h hf hmine
      have hs := code_step j1
      refine ⟨m + j + 1, by omega, ?_⟩
      show (p, id, SysInfo.reply) ∈ (ρ.st (m + j + 1)).sys.world.replied
      generalize (ρ.st (m + j + 1)).sys = τ at hs
      cases SysInfo.step_eff hs with
      | respond p' id' w g1 g2 g3 g4 g5 =>
        rw [j3, hcur] at g1
        cases g1
        generalize hw : w = w' at g5
        cases Action.step_eff g5 with
        | respond p id t x b h1 h2 => subst hw; simp
      | leave p' id' w g1 g2 g3 g4 g5 => rw [j4] at g3; exact absurd g3 hsaid
      | heard d w g1 g2 g3 g4 g5 => rw [j3, hcur] at g1; cases g1

theorem awake_flat {N : Nat} (hw : ρ.Awake N) : ρ.flat.Awake false N := by
  intro n
  obtain ⟨m, hm, h⟩ := hw n
  refine ⟨m, hm, fun hN => ?_⟩
  rcases h hN with e | e | ⟨g, e1, e2⟩
  · exact .inl (by simp [flat, e, under])
  · exact .inr (.inl (by simp [flat, e, under]))
  · exact .inr (.inr ⟨g, e1, e2⟩)

end Endless

end LP.SysRemote
