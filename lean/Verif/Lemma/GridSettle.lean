import Verif.Prop.Grid
import Verif.Lemma.BusCost
/-!
# A network of working hosts can always come to rest
-/
namespace LP.Bus

/-- The bus thread of a running bus stays inside `Run` if no callback throws. -/
theorem go_not_off {σ σ' : St} (hs : (σ.w.bus 0).running = true) (h : rstep .go σ = some σ') : σ'.phase ≠ .off := by
  unfold rstep at h
  split at h
  case h_11 =>
    rename_i m f st batch hp _
    cases hd : dstep σ.w m (σ.fates.length - 1) (f :: st) with
    | mk st' od => cases od <;> simp only [hd] at h <;> cases h <;> simp
  case h_9 => split at h <;> cases h <;> simp
  all_goals first
    | (cases h; simp [hs]; done)
    | (cases h; simp only [hs, if_true]; split <;> simp; done)
    | (rename_i h'; cases h'; done)
    | cases h

/-- From anywhere inside `Run` the thread of a running bus reaches a state with nothing to do. -/
theorem reaches_idle {σ : St} (hi : Reachable σ) (hs : (σ.w.bus 0).running = true) (hp : σ.phase ≠ .off) :
    ∃ n σ', exec σ (List.replicate n (.run .go)) = some σ' ∧ Idle σ' := by
  have once : ∀ {σ : St}, Reachable σ → (σ.w.bus 0).running = true → σ.phase ≠ .off → ∃ τ, rstep .go σ = some τ ∧ Reachable τ ∧
      (τ.w.bus 0).running = true ∧ τ.phase ≠ .off := by
    intro σ hi hs hp
    obtain ⟨τ, h⟩ := run_enabled σ hp
    refine ⟨τ, h, hi.exec (as := [.run .go]) (by simp [exec, step, h]), by rw [(run_world h).1]; exact hs, go_not_off hs h⟩
  have cons : ∀ {σ τ : St}, rstep .go σ = some τ → (∃ n σ', exec τ (List.replicate n (.run .go)) = some σ' ∧ Idle σ') →
      ∃ n σ', exec σ (List.replicate n (.run .go)) = some σ' ∧ Idle σ' := by
    rintro σ τ h ⟨n, σ', h1, h2⟩
    exact ⟨n + 1, σ', by rw [List.replicate_succ]; simp only [exec, step, h]; exact h1, h2⟩
  have empty : ∀ k, ∀ {σ : St}, Reachable σ → (σ.w.bus 0).running = true → σ.phase ≠ .off → σ.w.queue = [] → busy σ.w σ.phase ≤ k →
      ∃ n σ', exec σ (List.replicate n (.run .go)) = some σ' ∧ Idle σ' := by
    intro k
    induction k with
    | zero => 
      intro σ hi hs hp hq hk
      by_cases hid : Idle σ
      · exact ⟨0, σ, rfl, hid⟩
      · obtain ⟨τ, h, -⟩ := once hi hs hp
        rcases run_cases hi.inv h with ⟨m, st, cb, b, h1, h2⟩ | ⟨h1, h2, h3, h4⟩ | ⟨h1, h2, h3⟩ | ⟨h1, h2, h3⟩ | ⟨h1, h3, h2⟩ |
          ⟨h1, h2, h3⟩ | ⟨h1, h2, h3⟩ | ⟨h1, h2, h3⟩ | ⟨h1, h2, h3⟩
        · exact absurd h2 (go_not_off hs h)
        · omega
        all_goals exact absurd ⟨hq, by rw [h1]; rfl, fun _ _ _ _ h5 => by rw [h1] at h5; cases h5⟩ hid
    | succ k ih =>
      intro σ hi hs hp hq hk
      by_cases hid : Idle σ
      · exact ⟨0, σ, rfl, hid⟩
      · obtain ⟨τ, h, f1, f2, f3⟩ := once hi hs hp
        rcases run_cases hi.inv h with ⟨m, st, cb, b, h1, h2⟩ | ⟨h1, h2, h3, h4⟩ | ⟨h1, h2, h3⟩ | ⟨h1, h2, h3⟩ | ⟨h1, h3, h2⟩ |
          ⟨h1, h2, h3⟩ | ⟨h1, h2, h3⟩ | ⟨h1, h2, h3⟩ | ⟨h1, h2, h3⟩
        · exact absurd h2 f3
        · exact cons h (ih f1 f2 f3 (h4.trans hq) (by omega))
        all_goals exact absurd ⟨hq, by rw [h1]; rfl, fun _ _ _ _ h5 => by rw [h1] at h5; cases h5⟩ hid
  have full : ∀ k, ∀ {σ : St}, Reachable σ → (σ.w.bus 0).running = true → σ.phase ≠ .off → toDrain σ ≤ k →
      ∃ n σ', exec σ (List.replicate n (.run .go)) = some σ' ∧ Idle σ' := by
    intro k
    induction k with
    | zero =>
      intro σ hi hs hp hk
      exfalso
      have : toDrain σ ≠ 0 := by
        unfold toDrain
        split <;> first | omega | (rename_i h; exact absurd h hp)
      omega
    | succ k ih =>
      intro σ hi hs hp hk
      by_cases hq : σ.w.queue = []
      · exact empty _ hi hs hp hq (Nat.le_refl _)
      · obtain ⟨τ, h, f1, f2, f3⟩ := once hi hs hp
        rcases toDrain_run hi.inv hs hq f3 h with h1 | ⟨h1, -⟩
        · exact cons h (empty _ f1 f2 f3 h1 (Nat.le_refl _))
        · exact cons h (ih f1 f2 f3 (by omega))
  exact full _ hi hs hp (Nat.le_refl _)

end LP.Bus

namespace LP.Grid
open LP.Bus (BMsg Delivery)
open LP.Net (Hop Wired Connected Acyclic)

/-- The two buses have the same objects. -/
def Same (b b' : Bus.St) : Prop := b'.w.bus = b.w.bus ∧ b'.w.nb = b.w.nb ∧ b'.w.sub = b.w.sub ∧ b'.w.ns = b.w.ns

theorem runPath_same {w w' : Bus.World} (h : w'.bus = w.bus) {a b : Nat} (hp : Bus.RunPath w a b) : Bus.RunPath w' a b := by
  induction hp with
  | refl h1 => exact .refl (by rw [h]; exact h1)
  | step _ h2 h3 ih => exact .step ih (by unfold Bus.Child at *; rw [h]; exact h2) (by rw [h]; exact h3)

theorem live_same {b b' : Bus.St} (h : Same b b') {s : Nat} (hl : Bus.Live b.w s) : Bus.Live b'.w s := by
  obtain ⟨h1, h2, h3⟩ := hl
  refine ⟨?_, ?_, ?_⟩
  · rw [h.1, h.2.2.1]; exact h1
  · rw [h.2.2.1]; exact h2
  · rw [h.2.2.1]; exact runPath_same h.1 h3

theorem up_same {net : List Hop} {e : Ends} {σ τ : St} (h : ∀ v, Same (σ.host v) (τ.host v)) (hu : Up net e σ) : Up net e τ := by
  intro g hg
  obtain ⟨h1, h2, h3, h4⟩ := hu g hg
  exact ⟨by rw [(h _).2.2.2]; exact h1, live_same (h _) h2, by rw [(h _).2.2.1]; exact h3, by rw [(h _).1]; exact h4⟩

theorem working_same {ns : List Nat} {net : List Hop} {e : Ends} {σ τ : St} (h : ∀ v, Same (σ.host v) (τ.host v))
    (hoff : ∀ v ∈ ns, (τ.host v).phase ≠ .off) (hu : Working ns net e σ) : Working ns net e τ :=
  ⟨fun v hv => ⟨by rw [(h _).1]; exact (hu.1 v hv).1, hoff v hv⟩, fun g hg => by rw [(h _).2.1]; exact hu.2 g hg⟩

/-- A state of working hosts without clients, reached from the silence `σ₀`. -/
structure Ready (ns : List Nat) (net : List Hop) (e : Ends) (σ₀ σ : St) : Prop where
  from' : ∃ as, exec net e σ₀ as = some σ
  up : Up net e σ
  working : Working ns net e σ
  noClient : NoClient σ

/-- There is an execution without clients between the states. -/
def Leads (ns : List Nat) (net : List Hop) (e : Ends) (σ₀ σ τ : St) : Prop :=
  ∃ as, exec net e σ as = some τ ∧ (∀ a ∈ as, Unaided a) ∧ Throughout net e (Up net e) σ as ∧ Ready ns net e σ₀ τ ∧
    τ.injected = σ.injected

theorem exec_append (net : List Hop) (e : Ends) : ∀ (as bs : List Act) (σ σ' : St), exec net e σ as = some σ' →
    exec net e σ (as ++ bs) = exec net e σ' bs
  | [], _, _, _, h => by cases h; rfl
  | a :: as, bs, σ, σ', h => by
    obtain ⟨τ, h1, h2⟩ := exec_cons h
    simp only [List.cons_append, exec, h1]
    exact exec_append net e as bs τ σ' h2

theorem throughout_append {net : List Hop} {e : Ends} {P : St → Prop} : ∀ {as bs : List Act} {σ σ' : St}, exec net e σ as = some σ' →
    Throughout net e P σ as → Throughout net e P σ' bs → Throughout net e P σ (as ++ bs)
  | [], _, _, _, h, _, h2 => by cases h; exact h2
  | a :: as, bs, σ, σ', h, h1, h2 => by
    obtain ⟨τ, f1, f2⟩ := exec_cons h
    refine ⟨h1.1, fun ρ hρ => ?_⟩
    rw [f1] at hρ; cases hρ
    exact throughout_append f2 (h1.2 _ f1) h2

theorem Leads.refl {ns : List Nat} {net : List Hop} {e : Ends} {σ₀ σ : St} (h : Ready ns net e σ₀ σ) : Leads ns net e σ₀ σ σ :=
  ⟨[], rfl, by simp, h.up, h, rfl⟩

theorem Leads.trans {ns : List Nat} {net : List Hop} {e : Ends} {σ₀ σ τ ρ : St} (h : Leads ns net e σ₀ σ τ) (h' : Leads ns net e σ₀ τ ρ) :
    Leads ns net e σ₀ σ ρ := by
  obtain ⟨as, h1, h2, h3, h4, h5⟩ := h
  obtain ⟨bs, f1, f2, f3, f4, f5⟩ := h'
  refine ⟨as ++ bs, by rw [exec_append net e as bs σ τ h1]; exact f1, fun a ha => ?_, throughout_append h1 h3 f3, f4, f5.trans h5⟩
  rcases List.mem_append.mp ha with ha | ha
  · exact h2 a ha
  · exact f2 a ha

theorem ready_reach {ns : List Nat} {net : List Hop} {e : Ends} {σ₀ σ : St} (hsi : Silent σ₀) (h : Ready ns net e σ₀ σ) (v : Nat) :
    Bus.Reachable (σ.host v) := by
  obtain ⟨as, he⟩ := h.from'
  obtain ⟨l, f, -⟩ := project he v
  exact (hsi.reach v).exec f

/-- One event without clients. -/
theorem leads_step {ns : List Nat} {net : List Hop} {e : Ends} {σ₀ σ τ : St} {a : Act}
    (h : Ready ns net e σ₀ σ) (ha : Unaided a) (hs : step net e σ a = some τ) : Leads ns net e σ₀ σ τ := by
  have hfrom : ∃ as, exec net e σ₀ as = some τ := by
    obtain ⟨as, he⟩ := h.from'
    exact ⟨as ++ [a], by rw [exec_append net e as [a] σ₀ σ he]; simp [exec, hs]⟩
  suffices H : (∀ v, Same (σ.host v) (τ.host v)) ∧ (∀ v ∈ ns, (τ.host v).phase ≠ .off) ∧ NoClient τ ∧ τ.injected = σ.injected by
    obtain ⟨h1, h2, h3, h4⟩ := H
    have hu := up_same h1 h.up
    refine ⟨[a], by simp [exec, hs], by simpa using ha, ⟨h.up, fun ρ hρ => ?_⟩, ⟨hfrom, hu, working_same h1 h2 h.working, h3⟩, h4⟩
    rw [hs] at hρ; cases hρ; exact hu
  have others : ∀ {v : Nat} {b : Bus.St}, τ.host = put σ.host v b → Same (σ.host v) b → ((σ.host v).phase ≠ .off → v ∈ ns → b.phase ≠ .off) →
      (∀ u, Same (σ.host u) (τ.host u)) ∧ (∀ u ∈ ns, (τ.host u).phase ≠ .off) := by
    intro v b h1 h2 h3
    constructor
    · intro u
      rw [h1]
      by_cases eu : u = v
      · subst eu; rw [put_same]; exact h2
      · rw [put_other _ _ eu]; exact ⟨rfl, rfl, rfl, rfl⟩
    · intro u hu
      rw [h1]
      by_cases eu : u = v
      · subst eu; rw [put_same]; exact h3 (h.working.1 _ hu).2 hu
      · rw [put_other _ _ eu]; exact (h.working.1 _ hu).2
  cases a with
  | act v a =>
    simp only [step] at hs
    cases hb : Bus.step (σ.host v) a with
    | none => simp [hb] at hs
    | some b =>
      simp only [hb, Option.some.injEq] at hs
      have h1 : τ.host = put σ.host v b := by rw [← hs]
      have h2 : τ.calls = put σ.calls v (callsAfter (σ.host v) b (σ.calls v) a) := by rw [← hs]
      have h3 : τ.injected = σ.injected ++ injects v (σ.host v) (σ.calls v) a := by rw [← hs]
      have hno : (∀ x, none ∉ σ.calls x) → none ∉ callsAfter (σ.host v) b (σ.calls v) a → NoClient τ := by
        intro f1 f2 u
        rw [h2]
        by_cases eu : u = v
        · subst eu; rw [put_same]; exact f2
        · rw [put_other _ _ eu]; exact f1 u
      cases a with
      | run c =>
        cases c with
        | go =>
          obtain ⟨w1, w2, w3, w4, -, -, w7⟩ := Bus.run_world (c := .go) hb
          obtain ⟨g1, g2⟩ := others h1 ⟨w1, w2, w3, w4⟩ (fun _ hv => Bus.go_not_off (h.working.1 v hv).1 hb)
          refine ⟨g1, g2, hno h.noClient ?_, by rw [h3]; simp [injects]⟩
          simp only [callsAfter, w7, Nat.sub_self, List.replicate_zero, List.append_nil]
          exact h.noClient v
        | timeout => exact ha.elim
        | throwing => exact ha.elim
      | push i =>
        simp only [Bus.step] at hb
        cases hi : (σ.host v).inflight[i]? with
        | none => simp [hi] at hb
        | some m =>
          simp only [hi, Option.some.injEq] at hb
          obtain ⟨g1, g2⟩ := others h1 (by subst hb; exact ⟨rfl, rfl, rfl, rfl⟩) (fun hp _ => by subst hb; exact hp)
          refine ⟨g1, g2, hno h.noClient ?_, ?_⟩
          · simp only [callsAfter]
            exact fun hm => h.noClient v (List.mem_of_mem_eraseIdx hm)
          · rw [h3]
            have : injects v (σ.host v) (σ.calls v) (.push i) = [] := by
              simp only [injects, hi]
              split
              · rename_i h5; exact absurd (List.mem_of_getElem? h5) (h.noClient v)
              · rfl
            rw [this, List.append_nil]
      | _ => exact ha.elim
  | receive k =>
    simp only [step] at hs
    cases hk : σ.way[k]? with
    | none => simp [hk] at hs
    | some y =>
      obtain ⟨g, m⟩ := y
      simp only [hk] at hs
      cases hb : Bus.step (σ.host g.dst) (.publish (e.bus g) (Net.arrive g m)) with
      | none => simp [hb] at hs
      | some b =>
        simp only [hb, Option.some.injEq] at hs
        have h1 : τ.host = put σ.host g.dst b := by rw [← hs]
        simp only [Bus.step] at hb
        split at hb
        case isFalse => cases hb
        simp only [Option.some.injEq] at hb
        obtain ⟨g1, g2⟩ := others h1 (by subst hb; exact ⟨rfl, rfl, rfl, rfl⟩) (fun hp _ => by subst hb; exact hp)
        refine ⟨g1, g2, fun u hu => ?_, by rw [← hs]⟩
        rw [← hs] at hu
        simp only at hu
        by_cases eu : u = g.dst
        · subst eu
          rw [put_same] at hu
          rcases List.mem_append.mp hu with hu | hu
          · exact h.noClient _ hu
          · split at hu <;> simp at hu
        · rw [put_other _ _ eu] at hu; exact h.noClient u hu

/-- The bus thread of one host works until there is nothing left for it to do. -/
theorem leads_run {ns : List Nat} {net : List Hop} {e : Ends} (hin : ∀ h ∈ net, h.src ∈ ns ∧ h.dst ∈ ns) {σ₀ : St} (hsi : Silent σ₀)
    (v : Nat) : ∀ (n : Nat) {σ : St} {b : Bus.St}, Ready ns net e σ₀ σ → Bus.exec (σ.host v) (List.replicate n (.run .go)) = some b →
      ∃ τ, Leads ns net e σ₀ σ τ ∧ τ.host = put σ.host v b ∧ b.published = (σ.host v).published ∧ b.inflight = (σ.host v).inflight
  | 0, σ, b, h, hb => by
    cases hb
    refine ⟨σ, .refl h, ?_, rfl, rfl⟩
    funext u
    by_cases eu : u = v
    · subst eu; rw [put_same]
    · rw [put_other _ _ eu]
  | n + 1, σ, b, h, hb => by
    rw [List.replicate_succ] at hb
    simp only [Bus.exec] at hb
    cases hc : Bus.step (σ.host v) (.run .go) with
    | none => simp [hc] at hb
    | some c =>
      simp only [hc] at hb
      have hw := Bus.run_world (c := .go) hc
      cases hs : step net e σ (.act v (.run .go)) with
      | none => simp [step, hc] at hs
      | some τ =>
        have hl := leads_step h (a := .act v (.run .go)) trivial hs
        have h1 : τ.host = put σ.host v c := by simp only [step, hc, Option.some.injEq] at hs; rw [← hs]
        obtain ⟨_, -, -, -, hr, -⟩ := id hl
        have h2 : τ.host v = c := by rw [h1, put_same]
        obtain ⟨ρ, f1, f2, f3, f4⟩ := leads_run hin hsi v n (b := b) hr (by rw [h2]; exact hb)
        refine ⟨ρ, hl.trans f1, ?_, ?_, ?_⟩
        · rw [f2, h1]
          funext u
          by_cases eu : u = v
          · subst eu; rw [put_same, put_same]
          · rw [put_other _ _ eu, put_other _ _ eu, put_other _ _ eu]
        · rw [f3, h2]; exact hw.2.2.2.2.2.1
        · rw [f4, h2]; exact hw.2.2.2.2.2.2

theorem leads_ready {ns : List Nat} {net : List Hop} {e : Ends} {σ₀ σ τ : St} (h : Leads ns net e σ₀ σ τ) : Ready ns net e σ₀ τ := by
  obtain ⟨_, -, -, -, hr, -⟩ := h
  exact hr

theorem leads_injected {ns : List Nat} {net : List Hop} {e : Ends} {σ₀ σ τ : St} (h : Leads ns net e σ₀ σ τ) : τ.injected = σ.injected := by
  obtain ⟨_, -, -, -, -, hr⟩ := h
  exact hr

/-- All bus threads work until there is nothing left for them to do. -/
theorem leads_idle {ns : List Nat} {net : List Hop} {e : Ends} (hin : ∀ h ∈ net, h.src ∈ ns ∧ h.dst ∈ ns) {σ₀ : St} (hsi : Silent σ₀) :
    ∀ (vs : List Nat) {σ : St}, (∀ v ∈ vs, v ∈ ns) → Ready ns net e σ₀ σ →
      ∃ τ, Leads ns net e σ₀ σ τ ∧ (∀ v ∈ vs, Bus.Idle (τ.host v)) ∧ (∀ v, Bus.Idle (σ.host v) → Bus.Idle (τ.host v)) ∧
        (∀ v, (τ.host v).published = (σ.host v).published)
  | [], σ, _, h => ⟨σ, .refl h, by simp, fun _ h => h, fun _ => rfl⟩
  | v :: vs, σ, hv, h => by
    have hvn := hv v (by simp)
    obtain ⟨n, b, h1, h2⟩ := Bus.reaches_idle (ready_reach hsi h v) (h.working.1 v hvn).1 (h.working.1 v hvn).2
    obtain ⟨τ, f1, f2, f3, f4⟩ := leads_run hin hsi v n h h1
    obtain ⟨ρ, g1, g2, g3, g4⟩ := leads_idle hin hsi vs (fun u hu => hv u (by simp [hu])) (leads_ready f1)
    have hput : ∀ u, (τ.host u).published = (σ.host u).published := by
      intro u
      rw [f2]
      by_cases eu : u = v
      · subst eu; rw [put_same, f3]
      · rw [put_other _ _ eu]
    refine ⟨ρ, f1.trans g1, fun u hu => ?_, fun u hu => g3 u ?_, fun u => (g4 u).trans (hput u)⟩
    · rcases List.mem_cons.mp hu with rfl | hu
      · refine g3 u ?_
        rw [f2, put_same]; exact h2
      · exact g2 u hu
    · rw [f2]
      by_cases eu : u = v
      · subst eu; rw [put_same]; exact h2
      · rw [put_other _ _ eu]; exact hu

/-- What has been published on the given hosts. -/
def volume (σ : St) (vs : List Nat) : Nat := (vs.map (fun v => (σ.host v).published.length)).sum

theorem volume_le {σ τ : St} (h : ∀ v, (σ.host v).published.length ≤ (τ.host v).published.length) : ∀ vs, volume σ vs ≤ volume τ vs
  | [] => Nat.le_refl _
  | v :: vs => by
    have := volume_le h vs
    have := h v
    simp only [volume, List.map_cons, List.sum_cons] at *
    omega

theorem volume_lt {σ τ : St} (h : ∀ v, (σ.host v).published.length ≤ (τ.host v).published.length) : ∀ {vs : List Nat} {v : Nat}, v ∈ vs →
    (σ.host v).published.length < (τ.host v).published.length → volume σ vs < volume τ vs
  | u :: vs, v, hv, hlt => by
    have h1 := volume_le h vs
    have h2 := h u
    rcases List.mem_cons.mp hv with rfl | hv
    · simp only [volume, List.map_cons, List.sum_cons] at *
      omega
    · have := volume_lt h hv hlt
      simp only [volume, List.map_cons, List.sum_cons] at *
      omega

theorem volume_bound {σ : St} {n : Nat} : ∀ {vs : List Nat}, (∀ v ∈ vs, (σ.host v).published.length ≤ n) → volume σ vs ≤ n * vs.length
  | [], _ => Nat.zero_le _
  | v :: vs, h => by
    have h1 := volume_bound (vs := vs) (fun u hu => h u (by simp [hu]))
    have h2 := h v (by simp)
    simp only [volume, List.map_cons, List.sum_cons, List.length_cons, Nat.mul_add, Nat.mul_one] at *
    omega

/-- A call of `Publish` that is running appends its message. -/
theorem leads_push {ns : List Nat} {net : List Hop} {e : Ends} (hin : ∀ h ∈ net, h.src ∈ ns ∧ h.dst ∈ ns) {σ₀ σ : St} (hsi : Silent σ₀)
    (h : Ready ns net e σ₀ σ) {v : Nat} (hv : v ∈ ns) (hne : (σ.host v).inflight ≠ []) :
    ∃ τ, Leads ns net e σ₀ σ τ ∧ volume σ ns < volume τ ns := by
  cases hf : (σ.host v).inflight with
  | nil => exact absurd hf hne
  | cons m l =>
    cases hb : Bus.step (σ.host v) (.push 0) with
    | none => simp [Bus.step, hf] at hb
    | some b =>
      cases hs : step net e σ (.act v (.push 0)) with
      | none => simp [step, hb] at hs
      | some τ =>
        have h1 : τ.host = put σ.host v b := by simp only [step, hb, Option.some.injEq] at hs; rw [← hs]
        have h2 : b.published = (σ.host v).published ++ [m] := by
          simp only [Bus.step, hf, List.getElem?_cons_zero, Option.some.injEq] at hb
          rw [← hb]
        refine ⟨τ, leads_step h (a := .act v (.push 0)) trivial hs, volume_lt (fun u => ?_) hv ?_⟩
        · rw [h1]
          by_cases eu : u = v
          · subst eu; rw [put_same, h2]; simp
          · rw [put_other _ _ eu]
        · rw [h1, put_same, h2]; simp

/-- A link receives a message and publishes it. -/
theorem leads_receive {ns : List Nat} {net : List Hop} {e : Ends} (hin : ∀ h ∈ net, h.src ∈ ns ∧ h.dst ∈ ns) {σ₀ σ : St} (hsi : Silent σ₀)
    (h : Ready ns net e σ₀ σ) (hne : σ.way ≠ []) : ∃ τ, Leads ns net e σ₀ σ τ ∧ volume σ ns < volume τ ns := by
  obtain ⟨as, he⟩ := h.from'
  have hi := inside_exec he (inside_silent (net := net) hsi)
  cases hw : σ.way with
  | nil => exact absurd hw hne
  | cons x l =>
    obtain ⟨g, m⟩ := x
    have hg : g ∈ net := hi.1 (g, m) (by rw [hw]; simp)
    have hnb := h.working.2 g hg
    have hat := (h.up g hg).2.2.2
    cases hb : Bus.step (σ.host g.dst) (.publish (e.bus g) (Net.arrive g m)) with
    | none => simp [Bus.step, hnb] at hb
    | some b =>
      cases hs : step net e σ (.receive 0) with
      | none => simp [step, hw, hb] at hs
      | some τ =>
        have h1 : τ.host = put σ.host g.dst b := by
          simp only [step, hw, List.getElem?_cons_zero, hb, Option.some.injEq] at hs; rw [← hs]
        have h2 : b.inflight ≠ [] := by
          simp only [Bus.step, hnb, if_true, Option.some.injEq, Bus.publishMsg, hat] at hb
          rw [← hb]; simp
        have h3 : b.published = (σ.host g.dst).published := by
          simp only [Bus.step, hnb, if_true, Option.some.injEq] at hb
          rw [← hb]
        have hl := leads_step h (a := .receive 0) trivial hs
        obtain ⟨ρ, f1, f2⟩ := leads_push hin hsi (leads_ready hl) (hin g hg).2 (by rw [h1, put_same]; exact h2)
        refine ⟨ρ, hl.trans f1, Nat.lt_of_le_of_lt (volume_le (fun u => ?_) ns) f2⟩
        rw [h1]
        by_cases eu : u = g.dst
        · subst eu; rw [put_same, h3]
        · rw [put_other _ _ eu]

end LP.Grid
