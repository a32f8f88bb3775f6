import Verif.Lemma.GridTravel
import Verif.Lemma.AnsweredPlay
import Verif.Prop.GridSettle
/-!
# Working hosts can go on for ever, forgetting nothing
-/
namespace LP.Grid
open LP.Bus (BMsg)
open LP.Net (Hop Wired)

variable {net : List Hop} {e : Ends}

/-- A state, whose turn it is, and whether a link may receive. -/
structure Plan where
  st : St
  turn : Nat
  may : Bool

/-- What happens next: whatever was received is published at once; a link receives after each step of a bus thread; the bus threads
take turns. -/
def Plan.next (ns : List Nat) (p : Plan) : Act × Nat × Bool :=
  match ns.find? (fun v => !(p.st.host v).inflight.isEmpty) with
  | some v => (.act v (.push 0), p.turn, p.may)
  | none => if p.may && !p.st.way.isEmpty then (.receive 0, p.turn, false)
    else (.act (ns[p.turn % ns.length]?.getD 0) (.run .go), p.turn + 1, true)

/-- At most one thread is in a call of `Publish`. -/
def Light (ns : List Nat) (σ : St) : Prop := (∀ v, (σ.host v).inflight = []) ∨
  ∃ v ∈ ns, ∃ m, (σ.host v).inflight = [m] ∧ ∀ u, u ≠ v → (σ.host u).inflight = []

/-- Able to go on. -/
structure Able (ns : List Nat) (net : List Hop) (e : Ends) (σ₀ : St) (p : Plan) : Prop where
  ready : Ready ns net e σ₀ p.st
  light : Light ns p.st

theorem busy_push {ns : List Nat} {σ : St} (hl : Light ns σ) {v : Nat} {m : BMsg} (hm : m ∈ (σ.host v).inflight) :
    v ∈ ns ∧ (σ.host v).inflight = [m] ∧ (∀ u, u ≠ v → (σ.host u).inflight = []) ∧
    ns.find? (fun v => !(σ.host v).inflight.isEmpty) = some v := by
  rcases hl with h | ⟨w, hw, m', h1, h2⟩
  · rw [h v] at hm; cases hm
  · have : v = w := by
      refine Classical.byContradiction fun hne => ?_
      rw [h2 v hne] at hm; cases hm
    subst this
    have hm' : m = m' := by rw [h1] at hm; simpa using hm
    subst hm'
    refine ⟨hw, h1, h2, ?_⟩
    cases hf : ns.find? (fun v => !(σ.host v).inflight.isEmpty) with
    | none =>
      have := List.find?_eq_none.1 hf v hw
      simp [h1] at this
    | some u =>
      have h3 := List.find?_some hf
      by_cases eu : u = v
      · rw [eu]
      · simp [h2 u eu] at h3

theorem idle_find {ns : List Nat} {σ : St} (hl : Light ns σ) (h : ns.find? (fun v => !(σ.host v).inflight.isEmpty) = none) :
    ∀ v, (σ.host v).inflight = [] := by
  rcases hl with h | ⟨w, hw, m', h1, h2⟩
  · exact h
  · have := List.find?_eq_none.1 h w hw
    simp [h1] at this

theorem idle_none {ns : List Nat} {σ : St} (h : ∀ v, (σ.host v).inflight = []) : ns.find? (fun v => !(σ.host v).inflight.isEmpty) = none := by
  rw [List.find?_eq_none]; intro v _; simp [h v]

theorem turn_mem {ns : List Nat} (hne : ns ≠ []) (c : Nat) : ns[c % ns.length]?.getD 0 ∈ ns := by
  have hl : 0 < ns.length := List.length_pos_of_ne_nil hne
  rw [List.getElem?_eq_getElem (Nat.mod_lt _ hl)]
  exact List.getElem_mem _

theorem Leads.ready {ns : List Nat} {σ₀ σ τ : St} (h : Leads ns net e σ₀ σ τ) : Ready ns net e σ₀ τ ∧ τ.injected = σ.injected := by
  obtain ⟨as, -, -, -, h1, h2⟩ := h
  exact ⟨h1, h2⟩

/-- What is to happen next can happen, and leaves the hosts fit to go on. -/
theorem Able.goes {ns : List Nat} (hne : ns ≠ []) (hn : net.Nodup) (hin : ∀ h ∈ net, h.src ∈ ns ∧ h.dst ∈ ns) {σ₀ : St} (hsi : Silent σ₀) {p : Plan}
    (hf : Able ns net e σ₀ p) : ∃ τ, step net e p.st (p.next ns).1 = some τ ∧ Able ns net e σ₀ ⟨τ, (p.next ns).2.1, (p.next ns).2.2⟩ ∧ Unaided (p.next ns).1 ∧
      Ordered p.st (p.next ns).1 ∧ τ.injected = p.st.injected := by
  have done : ∀ {τ : St}, step net e p.st (p.next ns).1 = some τ → Unaided (p.next ns).1 → Ordered p.st (p.next ns).1 → Light ns τ →
      ∃ τ, step net e p.st (p.next ns).1 = some τ ∧ Able ns net e σ₀ ⟨τ, (p.next ns).2.1, (p.next ns).2.2⟩ ∧ Unaided (p.next ns).1 ∧
      Ordered p.st (p.next ns).1 ∧ τ.injected = p.st.injected := by
    intro τ h1 h2 h3 h4
    obtain ⟨h5, h6⟩ := (leads_step hf.ready h2 h1).ready
    exact ⟨τ, h1, ⟨h5, h4⟩, h2, h3, h6⟩
  cases hfi : ns.find? (fun v => !(p.st.host v).inflight.isEmpty) with
  | some v =>
    have hne' : (p.next ns).1 = .act v (.push 0) := by simp [Plan.next, hfi]
    rw [hne'] at done ⊢
    have h1 := List.find?_some hfi
    cases hl : (p.st.host v).inflight with
    | nil => simp [hl] at h1
    | cons m l =>
      obtain ⟨-, h2, h3, -⟩ := busy_push hf.light (v := v) (m := m) (by rw [hl]; simp)
      cases hb : Bus.step (p.st.host v) (.push 0) with
      | none => simp [Bus.step, h2] at hb
      | some b =>
        cases hs : step net e p.st (.act v (.push 0)) with
        | none => simp [step, hb] at hs
        | some τ =>
          have g1 : τ.host = put p.st.host v b := by simp only [step, hb, Option.some.injEq] at hs; rw [← hs]
          rw [← hs]
          refine done hs trivial trivial (.inl fun u => ?_)
          rw [g1]
          by_cases eu : u = v
          · subst eu
            rw [put_same]
            simp only [Bus.step, h2, List.getElem?_cons_zero, Option.some.injEq] at hb
            rw [← hb]; rfl
          · rw [put_other _ _ eu]; exact h3 u eu
  | none =>
    have hall := idle_find hf.light hfi
    by_cases hw : (p.may && !p.st.way.isEmpty) = true
    · have hne' : (p.next ns).1 = .receive 0 := by simp only [Plan.next, hfi, hw, if_true]
      rw [hne'] at done ⊢
      obtain ⟨as, he⟩ := hf.ready.from'
      have hi := inside_exec he (inside_silent (net := net) hsi)
      obtain ⟨-, ν, -, hmir⟩ := mirror_exec hn (mirror_silent net e hsi) he
      cases hway : p.st.way with
      | nil => simp [hway] at hw
      | cons x l =>
        obtain ⟨g, m⟩ := x
        have hg : g ∈ net := hi.1 (g, m) (by rw [hway]; simp)
        have hnb := hf.ready.working.2 g hg
        have hat := (hf.ready.up g hg).2.2.2
        cases hb : Bus.step (p.st.host g.dst) (.publish (e.bus g) (Net.arrive g m)) with
        | none => simp [Bus.step, hnb] at hb
        | some b =>
          cases hs : step net e p.st (.receive 0) with
          | none => simp [step, hway, hb] at hs
          | some τ =>
            have g1 : τ.host = put p.st.host g.dst b := by
              simp only [step, hway, List.getElem?_cons_zero, hb, Option.some.injEq] at hs; rw [← hs]
            rw [← hs]
            refine done hs trivial (fun x _ => ⟨fun j y hj => absurd hj (by omega), fun y hy => ?_⟩) (.inr ⟨g.dst, (hin g hg).2, Net.arrive g m, ?_, fun u hu => ?_⟩)
            · have := hmir.callsLen x.1.dst
              rw [hall] at this
              rw [List.length_eq_zero_iff.1 this] at hy; cases hy
            · rw [g1, put_same]
              simp only [Bus.step, hnb, if_true, Option.some.injEq] at hb
              rw [← hb]
              simp [hall g.dst, hat, Bus.publishMsg]
            · rw [g1, put_other _ _ hu]; exact hall u
    · have hne' : (p.next ns).1 = .act (ns[p.turn % ns.length]?.getD 0) (.run .go) := by
        simp only [Plan.next, hfi]; rw [if_neg hw]
      rw [hne'] at done ⊢
      obtain ⟨b, hb⟩ := Bus.run_enabled (p.st.host (ns[p.turn % ns.length]?.getD 0)) (hf.ready.working.1 _ (turn_mem hne p.turn)).2
      cases hs : step net e p.st (.act (ns[p.turn % ns.length]?.getD 0) (.run .go)) with
      | none => simp [step, Bus.step, hb] at hs
      | some τ =>
        have g1 : τ.host = put p.st.host (ns[p.turn % ns.length]?.getD 0) b := by simp only [step, Bus.step, hb, Option.some.injEq] at hs; rw [← hs]
        rw [← hs]
        refine done hs trivial trivial (.inl fun u => ?_)
        rw [g1]
        by_cases eu : u = ns[p.turn % ns.length]?.getD 0
        · rw [eu, put_same, (Bus.run_world hb).2.2.2.2.2.2]; exact hall _
        · rw [put_other _ _ eu]; exact hall u

/-- One event at the beginning. -/
def Endless.cons (σ : St) (a : Act) (ρ : Endless net e) (h : step net e σ a = some (ρ.st 0)) : Endless net e :=
  ⟨fun n => match n with | 0 => σ | n + 1 => ρ.st n, fun n => match n with | 0 => a | n + 1 => ρ.act n,
    fun n => match n with | 0 => h | n + 1 => ρ.ok n⟩

/-- A finite execution at the beginning. -/
theorem Endless.extend {σ τ : St} {as : List Act} (he : exec net e σ as = some τ) (ρ : Endless net e) (h0 : ρ.st 0 = τ) :
    ∃ ρ' : Endless net e, ρ'.st 0 = σ ∧ (∀ k, ρ'.st (as.length + k) = ρ.st k ∧ ρ'.act (as.length + k) = ρ.act k) ∧
      (∀ P, Throughout net e P σ as → ∀ m, m ≤ as.length → P (ρ'.st m)) ∧
      (InOrder net e σ as → ∀ m, m < as.length → Ordered (ρ'.st m) (ρ'.act m)) ∧ ∀ m, m < as.length → ρ'.act m ∈ as := by
  induction as generalizing σ with
  | nil =>
    cases he
    refine ⟨ρ, h0, fun k => by simp, fun P hP m hm => ?_, fun _ m hm => by simp at hm, fun m hm => by simp at hm⟩
    have : m = 0 := by simpa using hm
    subst this; rw [h0]; exact hP
  | cons a as ih =>
    obtain ⟨τ', h1, h2⟩ := exec_cons he
    obtain ⟨ρ', e1, e2, e3, e4, e5⟩ := ih h2
    refine ⟨Endless.cons σ a ρ' (by rw [e1]; exact h1), rfl, fun k => ?_, fun P hP m hm => ?_, fun hQ m hm => ?_, fun m hm => ?_⟩
    · rw [show (a :: as).length + k = (as.length + k) + 1 by simp; omega]; exact e2 k
    · cases m with
      | zero => exact hP.1
      | succ m => exact e3 P (hP.2 _ h1) m (by simpa using hm)
    · cases m with
      | zero => exact hQ.1
      | succ m => exact e4 (hQ.2 _ h1) m (by simpa using hm)
    · cases m with
      | zero => show a ∈ a :: as; simp
      | succ m =>
        have := e5 m (by simpa using hm)
        show ρ'.act m ∈ a :: as
        simp [this]

/-- What leaves a call of `Publish` does so through `push`, what leaves the way is received. -/
theorem leaves {σ σ' : St} {a : Act} (h : step net e σ a = some σ') :
    (∀ v, ∀ m ∈ (σ.host v).inflight, m ∉ (σ'.host v).inflight → ∃ i, (σ.host v).inflight[i]? = some m ∧ a = .act v (.push i)) ∧
    ∀ x ∈ σ.way, x ∉ σ'.way → ∃ i, σ.way[i]? = some x ∧ a = .receive i := by
  cases a with
  | act v a =>
    simp only [step] at h
    split at h
    · cases h
    · rename_i b hb
      cases h
      refine ⟨fun u m h1 h2 => ?_, fun x h1 h2 => absurd (List.mem_append_left _ h1) h2⟩
      simp only at h2
      by_cases eu : u = v
      · subst eu
        rw [put_same] at h2
        obtain ⟨i, f1, f2⟩ := Action.inflight_leaves hb h1 h2
        exact ⟨i, f2, by rw [f1]⟩
      · rw [put_other _ _ eu] at h2; exact absurd h1 h2
  | receive k =>
    simp only [step] at h
    split at h
    · cases h
    · rename_i g m hk
      split at h
      · cases h
      · rename_i b hb
        cases h
        refine ⟨fun u m' h1 h2 => ?_, fun x h1 h2 => ⟨k, Action.mem_eraseIdx h1 h2, rfl⟩⟩
        simp only at h2
        by_cases eu : u = g.dst
        · subst eu
          rw [put_same] at h2
          obtain ⟨i, f1, -⟩ := Action.inflight_leaves hb h1 h2
          cases f1
        · rw [put_other _ _ eu] at h2; exact absurd h1 h2

/-- Whatever is nowhere to be found later has left in between. -/
theorem Endless.left (ρ : Endless net e) (d : Nat) : ∀ n,
    (∀ v, ∀ m ∈ ((ρ.st n).host v).inflight, m ∉ ((ρ.st (n + d)).host v).inflight →
      ∃ k i, n ≤ k ∧ ((ρ.st k).host v).inflight[i]? = some m ∧ ρ.act k = .act v (.push i)) ∧
    ∀ x ∈ (ρ.st n).way, x ∉ (ρ.st (n + d)).way → ∃ k i, n ≤ k ∧ (ρ.st k).way[i]? = some x ∧ ρ.act k = .receive i := by
  induction d with
  | zero => exact fun n => ⟨fun v m h1 h2 => absurd h1 h2, fun x h1 h2 => absurd h1 h2⟩
  | succ d ih =>
    intro n
    refine ⟨fun v m h1 h2 => ?_, fun x h1 h2 => ?_⟩
    · by_cases h3 : m ∈ ((ρ.st (n + 1)).host v).inflight
      · obtain ⟨k, i, f1, f2⟩ := (ih (n + 1)).1 v m h3 (by rw [show n + 1 + d = n + (d + 1) by omega]; exact h2)
        exact ⟨k, i, by omega, f2⟩
      · obtain ⟨i, f1, f2⟩ := (leaves (ρ.ok n)).1 v m h1 h3
        exact ⟨n, i, Nat.le_refl _, f1, f2⟩
    · by_cases h3 : x ∈ (ρ.st (n + 1)).way
      · obtain ⟨k, i, f1, f2⟩ := (ih (n + 1)).2 x h3 (by rw [show n + 1 + d = n + (d + 1) by omega]; exact h2)
        exact ⟨k, i, by omega, f2⟩
      · obtain ⟨i, f1, f2⟩ := (leaves (ρ.ok n)).2 x h1 h3
        exact ⟨n, i, Nat.le_refl _, f1, f2⟩

/-- Hosts that are fit to go on do so for ever, forgetting nothing. -/
theorem Able.endless {ns : List Nat} (hne : ns ≠ []) (hn : net.Nodup) (hin : ∀ h ∈ net, h.src ∈ ns ∧ h.dst ∈ ns) {σ₀ : St} (hsi : Silent σ₀) {p : Plan}
    (hf : Able ns net e σ₀ p) : ∃ ρ : Endless net e, ρ.st 0 = p.st ∧ ρ.Fair ns ∧ ρ.Prompt ns ∧
      ∀ n, Ready ns net e σ₀ (ρ.st n) ∧ Unaided (ρ.act n) ∧ Ordered (ρ.st n) (ρ.act n) ∧ (ρ.st n).injected = p.st.injected := by
  let go : {p : Plan // Able ns net e σ₀ p} → {p : Plan // Able ns net e σ₀ p} :=
    fun q => ⟨⟨(q.2.goes hne hn hin hsi).choose, (q.1.next ns).2.1, (q.1.next ns).2.2⟩, (q.2.goes hne hn hin hsi).choose_spec.2.1⟩
  let run : Nat → {p : Plan // Able ns net e σ₀ p} := fun n => Nat.rec ⟨p, hf⟩ (fun _ q => go q) n
  have hrun : ∀ n, run (n + 1) = go (run n) := fun _ => rfl
  have hst : ∀ n, step net e (run n).1.st ((run n).1.next ns).1 = some (run (n + 1)).1.st :=
    fun n => ((run n).2.goes hne hn hin hsi).choose_spec.1
  have hex : ∀ n, Unaided ((run n).1.next ns).1 ∧ Ordered (run n).1.st ((run n).1.next ns).1 ∧ (run (n + 1)).1.st.injected = (run n).1.st.injected :=
    fun n => ((run n).2.goes hne hn hin hsi).choose_spec.2.2
  have ht : ∀ n, (run (n + 1)).1.turn = ((run n).1.next ns).2.1 ∧ (run (n + 1)).1.may = ((run n).1.next ns).2.2 := fun _ => ⟨rfl, rfl⟩
  let ρ : Endless net e := ⟨fun n => (run n).1.st, fun n => ((run n).1.next ns).1, hst⟩
  -- the three kinds of steps
  have kinds : ∀ n, (∃ v ∈ ns, ρ.act n = .act v (.push 0) ∧ (run (n + 1)).1.turn = (run n).1.turn ∧ (run (n + 1)).1.may = (run n).1.may ∧
        ∀ u, ((ρ.st (n + 1)).host u).inflight = []) ∨
      ((∀ u, ((ρ.st n).host u).inflight = []) ∧ ρ.act n = .receive 0 ∧ (run n).1.may = true ∧ (ρ.st n).way ≠ [] ∧
        (run (n + 1)).1.turn = (run n).1.turn ∧ (run (n + 1)).1.may = false) ∨
      ((∀ u, ((ρ.st n).host u).inflight = []) ∧ ((run n).1.may = false ∨ (ρ.st n).way = []) ∧
        ρ.act n = .act (ns[(run n).1.turn % ns.length]?.getD 0) (.run .go) ∧
        (run (n + 1)).1.turn = (run n).1.turn + 1 ∧ (run (n + 1)).1.may = true ∧ ∀ u, ((ρ.st (n + 1)).host u).inflight = []) := by
    intro n
    cases hfi : ns.find? (fun v => !((run n).1.st.host v).inflight.isEmpty) with
    | some v =>
      have h1 : (run n).1.next ns = (.act v (.push 0), (run n).1.turn, (run n).1.may) := by simp [Plan.next, hfi]
      have h2 := List.find?_some hfi
      obtain ⟨m, hm⟩ : ∃ m, m ∈ ((run n).1.st.host v).inflight := by
        cases hl : ((run n).1.st.host v).inflight with
        | nil => simp [hl] at h2
        | cons m l => exact ⟨m, by simp⟩
      obtain ⟨h3, h4, h5, -⟩ := busy_push (run n).2.light hm
      refine .inl ⟨v, h3, congrArg Prod.fst h1, by rw [(ht n).1, h1], by rw [(ht n).2, h1], fun u => ?_⟩
      have h6 := hst n
      rw [h1] at h6
      simp only [step, Bus.step, h4, List.getElem?_cons_zero, Option.some.injEq] at h6
      show ((run (n + 1)).1.st.host u).inflight = []
      rw [← h6]
      simp only
      by_cases eu : u = v
      · subst eu; rw [put_same]; rfl
      · rw [put_other _ _ eu]; exact h5 u eu
    | none =>
      have hall := idle_find (run n).2.light hfi
      by_cases hw : ((run n).1.may && !(run n).1.st.way.isEmpty) = true
      · have h1 : (run n).1.next ns = (.receive 0, (run n).1.turn, false) := by simp only [Plan.next, hfi, hw, if_true]
        simp only [Bool.and_eq_true, Bool.not_eq_true', List.isEmpty_eq_false_iff] at hw
        exact .inr (.inl ⟨hall, congrArg Prod.fst h1, hw.1, hw.2, by rw [(ht n).1, h1], by rw [(ht n).2, h1]⟩)
      · have h1 : (run n).1.next ns = (.act (ns[(run n).1.turn % ns.length]?.getD 0) (.run .go), (run n).1.turn + 1, true) := by
          simp only [Plan.next, hfi]; rw [if_neg hw]
        refine .inr (.inr ⟨hall, ?_, congrArg Prod.fst h1, by rw [(ht n).1, h1], by rw [(ht n).2, h1], fun u => ?_⟩)
        · cases hm : (run n).1.may with
          | false => exact .inl rfl
          | true => refine .inr ?_; simpa [hm] using hw
        · have h6 := hst n
          rw [h1] at h6
          simp only [step] at h6
          split at h6
          · cases h6
          · rename_i b hb
            have h6 := Option.some.inj h6
            show ((run (n + 1)).1.st.host u).inflight = []
            rw [← h6]
            simp only
            by_cases eu : u = ns[(run n).1.turn % ns.length]?.getD 0
            · subst eu; rw [put_same, (Bus.run_world hb).2.2.2.2.2.2]; exact hall _
            · rw [put_other _ _ eu]; exact hall u
  -- a step of a bus thread comes soon
  have run_may : ∀ n, (∀ u, ((ρ.st n).host u).inflight = []) → (run n).1.may = false →
      ρ.act n = .act (ns[(run n).1.turn % ns.length]?.getD 0) (.run .go) ∧ (run (n + 1)).1.turn = (run n).1.turn + 1 ∧
        (run (n + 1)).1.may = true ∧ ∀ u, ((ρ.st (n + 1)).host u).inflight = [] := by
    intro n h1 h2
    rcases kinds n with ⟨v, k0, k1, -, -, -⟩ | ⟨-, -, k3, -⟩ | ⟨-, -, k3⟩
    · exfalso
      have : ((run n).1.next ns).1 = .act v (.push 0) := k1
      have hno : ns.find? (fun v => !((run n).1.st.host v).inflight.isEmpty) = none := idle_none h1
      simp only [Plan.next, hno, h2, Bool.false_and, Bool.false_eq_true, if_false] at this
      cases this
    · rw [h2] at k3; cases k3
    · exact k3
  have grow : ∀ n, ρ.act n ≠ .receive 0 → (ρ.st n).way <+: (ρ.st (n + 1)).way := by
    intro n hr
    have h6 := ρ.ok n
    rcases kinds n with ⟨v, -, k1, -⟩ | ⟨-, k2, -⟩ | ⟨-, -, k3, -⟩
    · rw [k1] at h6
      simp only [step] at h6
      split at h6
      · cases h6
      · rw [← Option.some.inj h6]; exact List.prefix_append _ _
    · exact absurd k2 hr
    · rw [k3] at h6
      simp only [step] at h6
      split at h6
      · cases h6
      · rw [← Option.some.inj h6]; exact List.prefix_append _ _
  have shrink : ∀ n, ρ.act n = .receive 0 → (ρ.st (n + 1)).way = (ρ.st n).way.tail := by
    intro n hr
    have h6 := ρ.ok n
    rw [hr] at h6
    simp only [step] at h6
    split at h6
    · cases h6
    · split at h6
      · cases h6
      · rw [← Option.some.inj h6]; simp
  have after_receive : ∀ n, (run n).1.may = false → ∃ j, n ≤ j ∧ ρ.act j = .act (ns[(run n).1.turn % ns.length]?.getD 0) (.run .go) ∧
      (run (j + 1)).1.turn = (run n).1.turn + 1 ∧ (run (j + 1)).1.may = true ∧ (∀ u, ((ρ.st (j + 1)).host u).inflight = []) ∧
      (ρ.st n).way <+: (ρ.st (j + 1)).way := by
    intro n hm
    rcases kinds n with ⟨v, -, k1, k2, k3, k4⟩ | ⟨-, -, k3, -⟩ | ⟨k1, -, k3⟩
    · obtain ⟨h1, h2, h3, h4⟩ := run_may (n + 1) k4 (by rw [k3]; exact hm)
      refine ⟨n + 1, by omega, by rw [h1, k2], by rw [h2, k2], h3, h4, (grow n (by rw [k1]; simp)).trans (grow (n + 1) (by rw [h1]; simp))⟩
    · rw [hm] at k3; cases k3
    · obtain ⟨h1, h2, h3, h4⟩ := run_may n k1 hm
      exact ⟨n, Nat.le_refl _, h1, h2, h3, h4, grow n (by rw [h1]; simp)⟩
  have round : ∀ n, (∀ u, ((ρ.st n).host u).inflight = []) → ∃ j, n ≤ j ∧ ρ.act j = .act (ns[(run n).1.turn % ns.length]?.getD 0) (.run .go) ∧
      (run (j + 1)).1.turn = (run n).1.turn + 1 ∧ (run (j + 1)).1.may = true ∧ (∀ u, ((ρ.st (j + 1)).host u).inflight = []) ∧
      ((run n).1.may = true → (ρ.st n).way ≠ [] → ρ.act n = .receive 0 ∧ (ρ.st n).way.tail <+: (ρ.st (j + 1)).way) := by
    intro n hi
    rcases kinds n with ⟨v, -, k1, -⟩ | ⟨-, k2, k3, k4, k5, k6⟩ | ⟨-, k2, k3, k4, k5, k6⟩
    · exfalso
      have : ((run n).1.next ns).1 = .act v (.push 0) := k1
      have hno : ns.find? (fun v => !((run n).1.st.host v).inflight.isEmpty) = none := idle_none hi
      simp only [Plan.next, hno] at this
      split at this <;> cases this
    · obtain ⟨j, h1, h2, h3, h4, h5, h6⟩ := after_receive (n + 1) k6
      exact ⟨j, by omega, by rw [h2, k5], by rw [h3, k5], h4, h5, fun _ _ => ⟨k2, by rw [← shrink n k2]; exact h6⟩⟩
    · refine ⟨n, Nat.le_refl _, k3, k4, k5, k6, fun h1 h2 => ?_⟩
      rcases k2 with k2 | k2
      · rw [k2] at h1; cases h1
      · exact absurd k2 h2
  have idle : ∀ n, ∃ j, n ≤ j ∧ (run j).1.turn = (run n).1.turn ∧ ∀ u, ((ρ.st j).host u).inflight = [] := by
    intro n
    rcases kinds n with ⟨v, -, k1, k2, k3, k4⟩ | ⟨k1, -⟩ | ⟨k1, -⟩
    · exact ⟨n + 1, by omega, k2, k4⟩
    · exact ⟨n, Nat.le_refl _, rfl, k1⟩
    · exact ⟨n, Nat.le_refl _, rfl, k1⟩
  have turns : ∀ d n, ∃ j, n ≤ j ∧ ρ.act j = .act (ns[((run n).1.turn + d) % ns.length]?.getD 0) (.run .go) := by
    intro d
    induction d with
    | zero =>
      intro n
      obtain ⟨m, h1, h2, h3⟩ := idle n
      obtain ⟨j, f1, f2, -⟩ := round m h3
      exact ⟨j, by omega, by rw [f2, h2]; rfl⟩
    | succ d ih =>
      intro n
      obtain ⟨m, h1, h2, h3⟩ := idle n
      obtain ⟨j, f1, f2, f3, -⟩ := round m h3
      obtain ⟨k, g1, g2⟩ := ih (j + 1)
      exact ⟨k, by omega, by rw [g2, f3, h2, show (run n).1.turn + 1 + d = (run n).1.turn + (d + 1) by omega]⟩
  have hinj : ∀ n, (ρ.st n).injected = p.st.injected := by
    intro n
    induction n with
    | zero => rfl
    | succ n ih => exact (hex n).2.2.trans ih
  have recv : ∀ (i n : Nat) (x : Hop × BMsg), (∀ u, ((ρ.st n).host u).inflight = []) → (run n).1.may = true → (ρ.st n).way[i]? = some x →
      ∃ k j, n ≤ k ∧ (ρ.st k).way[j]? = some x ∧ ρ.act k = .receive j := by
    intro i
    induction i with
    | zero =>
      intro n x h1 h2 h3
      obtain ⟨_, -, -, -, -, -, h4⟩ := round n h1
      exact ⟨n, 0, Nat.le_refl _, h3, (h4 h2 (by intro e; rw [e] at h3; cases h3)).1⟩
    | succ i ih =>
      intro n x h1 h2 h3
      obtain ⟨j, f1, -, -, f2, f3, h4⟩ := round n h1
      obtain ⟨-, h5⟩ := h4 h2 (by intro e; rw [e] at h3; cases h3)
      obtain ⟨t, ht⟩ := h5
      obtain ⟨k, l, g1, g2⟩ := ih (j + 1) x f3 f2 (by
        rw [← ht, List.getElem?_append_left]
        · rw [List.getElem?_tail]; exact h3
        · have := (List.getElem?_eq_some_iff.1 h3).1
          simp; omega)
      exact ⟨k, l, by omega, g2⟩
  refine ⟨ρ, rfl, fun v hv n => ?_, ⟨fun v hv n m hm => ?_, fun n x hx => ?_⟩, fun n => ⟨(run n).2.ready, (hex n).1, (hex n).2.1, hinj n⟩⟩
  · obtain ⟨i, hi⟩ := List.mem_iff_getElem?.1 hv
    have hl := (List.getElem?_eq_some_iff.1 hi).1
    -- some later turn is that of `v`
    obtain ⟨j, h1, h2⟩ := turns (ns.length - (run n).1.turn % ns.length + i) n
    refine ⟨j, h1, .go, ?_⟩
    have hlt := Nat.mod_lt (run n).1.turn (Nat.lt_of_le_of_lt (Nat.zero_le _) hl)
    have : ((run n).1.turn + (ns.length - (run n).1.turn % ns.length + i)) % ns.length = i := by
      have hd := Nat.div_add_mod (run n).1.turn ns.length
      rw [show (run n).1.turn + (ns.length - (run n).1.turn % ns.length + i) = i + ns.length * ((run n).1.turn / ns.length + 1) by
        rw [Nat.mul_add]; omega, Nat.add_mul_mod_self_left, Nat.mod_eq_of_lt hl]
    rw [h2, this, hi]; rfl
  · obtain ⟨-, h2, -, h3⟩ := busy_push (run n).2.light hm
    refine ⟨n, 0, Nat.le_refl _, by show ((run n).1.st.host v).inflight[0]? = some m; rw [h2]; rfl, ?_⟩
    show ((run n).1.next ns).1 = _
    simp only [Plan.next, h3]
  · obtain ⟨m, h1, -, h3⟩ := idle n
    obtain ⟨j, f1, -, -, f2, f3, -⟩ := round m h3
    obtain ⟨d, hd⟩ := Nat.exists_eq_add_of_le (show n ≤ j + 1 by omega)
    by_cases hxj : x ∈ (ρ.st (j + 1)).way
    · obtain ⟨i, hi⟩ := List.mem_iff_getElem?.1 hxj
      obtain ⟨k, l, g1, g2⟩ := recv i (j + 1) x f3 f2 hi
      exact ⟨k, l, by omega, g2⟩
    · exact (ρ.left d n).2 x hx (by rw [← hd]; exact hxj)

/-- Without the clients no objects come, go or change. -/
theorem same_step {σ τ : St} {a : Act} (ha : Unaided a) (hs : step net e σ a = some τ) (v : Nat) : Same (σ.host v) (τ.host v) := by
  have self : ∀ b : Bus.St, Same b b := fun b => ⟨rfl, rfl, rfl, rfl⟩
  have key : ∀ (u : Nat) (b : Bus.St), Same (σ.host u) b → Same (σ.host v) (put σ.host u b v) := by
    intro u b h
    by_cases eu : v = u
    · subst eu; rw [put_same]; exact h
    · rw [put_other _ _ eu]; exact self _
  cases a with
  | act u a =>
    simp only [step] at hs
    split at hs
    · cases hs
    · rename_i b hb
      cases hs
      refine key u b ?_
      cases a with
      | run c =>
        obtain ⟨w1, w2, w3, w4, -⟩ := Bus.run_world hb
        exact ⟨w1, w2, w3, w4⟩
      | push i =>
        simp only [Bus.step] at hb
        split at hb <;> cases hb
        exact ⟨rfl, rfl, rfl, rfl⟩
      | _ => exact ha.elim
  | receive k =>
    simp only [step] at hs
    split at hs
    · cases hs
    · split at hs
      · cases hs
      · rename_i b hb
        cases hs
        refine key _ b ?_
        simp only [Bus.step] at hb
        split at hb <;> cases hb
        exact self _

/-- Whatever the network has been doing, it can go on for ever without its clients, forgetting nothing. -/
theorem goes_on {ns : List Nat} (hne : ns ≠ []) (hw : Wired ns net) {σ₀ σ : St} {as : List Act} (hsi : Silent σ₀) (he : exec net e σ₀ as = some σ)
    (hord : InOrder net e σ₀ as) (hup : Throughout net e (Up net e) σ₀ as) (hpr : Proper net σ) (hthr : ∀ v, .act v (.run .throwing) ∉ as)
    (hrun : Throughout net e (fun τ => ∀ v ∈ ns, ((τ.host v).w.bus 0).running = true) σ₀ as) (hst : ∀ v ∈ ns, (σ₀.host v).phase ≠ .off)
    (hwk : Working ns net e σ) (hidle : ∀ v, (σ.host v).inflight = []) :
    ∃ ρ : Endless net e, ρ.Operating ns ∧ ρ.st 0 = σ₀ ∧ ρ.st as.length = σ ∧ (∀ P, Throughout net e P σ₀ as → ∀ n, n ≤ as.length → P (ρ.st n)) ∧
      (∀ n, as.length ≤ n → Unaided (ρ.act n) ∧ (ρ.st n).injected = σ.injected) ∧
      ∀ v s, Throughout net e (fun τ => Bus.Live (τ.host v).w s) σ₀ as → s < (σ₀.host v).w.ns → ρ.Listens v s := by
  obtain ⟨-, ν, -, hmir⟩ := mirror_exec hw.once (mirror_silent net e hsi) he
  have hcl : NoClient σ := by
    intro v hv
    have := hmir.callsLen v
    rw [hidle] at this
    rw [List.length_eq_zero_iff.1 this] at hv; cases hv
  have hready : Ready ns net e σ₀ σ := ⟨⟨as, he⟩, (throughout_last hup he), hwk, hcl⟩
  obtain ⟨ρ₁, r0, rf, ⟨rp1, rp2⟩, rr⟩ := Able.endless hne hw.once (wired_inside hw) hsi (p := ⟨σ, 0, true⟩) ⟨hready, .inl hidle⟩
  obtain ⟨ρ, e1, e2, e3, e4, e5⟩ := Endless.extend he ρ₁ r0
  have hend : ρ.st as.length = σ := by have := (e2 0).1; rw [Nat.add_zero] at this; rw [this]; exact r0
  have later : ∀ n, as.length ≤ n → ∃ k, n = as.length + k ∧ ρ.st n = ρ₁.st k ∧ ρ.act n = ρ₁.act k := by
    intro n hn
    obtain ⟨k, rfl⟩ := Nat.exists_eq_add_of_le hn
    exact ⟨k, rfl, e2 k⟩
  have hinj : ∀ d n, (ρ.st n).injected <+: (ρ.st (n + d)).injected := by
    intro d
    induction d with
    | zero => exact fun n => List.prefix_refl _
    | succ d ih =>
      intro n
      refine (ih n).trans ?_
      have h := ρ.ok (n + d)
      cases ha : ρ.act (n + d) with
      | act v a =>
        rw [ha] at h
        simp only [step] at h
        split at h
        · cases h
        · rw [show n + (d + 1) = n + d + 1 by omega, ← Option.some.inj h]; exact List.prefix_append _ _
      | receive k =>
        rw [ha] at h
        simp only [step] at h
        split at h
        · cases h
        · split at h
          · cases h
          · rw [show n + (d + 1) = n + d + 1 by omega, ← Option.some.inj h]
  have hinj' : ∀ n, ∀ x ∈ (ρ.st n).injected, x ∈ σ.injected := by
    intro n x hx
    by_cases hn : n ≤ as.length
    · obtain ⟨d, hd⟩ := Nat.exists_eq_add_of_le hn
      have := hinj d n
      rw [← hd, hend] at this
      exact this.subset hx
    · obtain ⟨k, -, h1, -⟩ := later n (by omega)
      rw [h1, (rr k).2.2.2] at hx; exact hx
  have hlater : ∀ n, as.length ≤ n → Unaided (ρ.act n) ∧ (ρ.st n).injected = σ.injected := by
    intro n hn
    obtain ⟨k, -, h1, h2⟩ := later n hn
    rw [h1, h2]; exact ⟨(rr k).2.1, (rr k).2.2.2⟩
  refine ⟨ρ, ⟨by rw [e1]; exact hsi, fun n => ?_, fun n => ?_, fun n x hx => hpr x (hinj' n x hx), fun n v hv => ?_, by rw [e1]; exact hst, fun n v ha => ?_,
    ⟨as.length, fun n hn v b name ha => ?_⟩, fun v hv n => ?_, fun v hv n m hm => ?_, fun n x hx => ?_⟩, e1, hend, e3, hlater, fun v s hl hs => ⟨by rw [e1]; exact hs, ?_⟩⟩
  · by_cases hn : n ≤ as.length
    · exact e3 _ hup n hn
    · obtain ⟨k, -, h1, -⟩ := later n (by omega)
      rw [h1]; exact (rr k).1.up
  · by_cases hn : n < as.length
    · exact e4 hord n hn
    · obtain ⟨k, -, h1, h2⟩ := later n (by omega)
      rw [h1, h2]; exact (rr k).2.2.1
  · by_cases hn : n ≤ as.length
    · exact e3 _ hrun n hn v hv
    · obtain ⟨k, -, h1, -⟩ := later n (by omega)
      rw [h1]; exact ((rr k).1.working.1 v hv).1
  · by_cases hn : n < as.length
    · have := e5 n hn
      rw [ha] at this
      exact hthr v this
    · have := (hlater n (by omega)).1
      rw [ha] at this; exact this
  · have := (hlater n hn).1
    rw [ha] at this; exact this
  · obtain ⟨m, h1, c, h2⟩ := rf v hv n
    exact ⟨as.length + m, by omega, c, by rw [(e2 m).2]; exact h2⟩
  · by_cases hn : n ≤ as.length
    · obtain ⟨d, hd⟩ := Nat.exists_eq_add_of_le hn
      exact (ρ.left d n).1 v m hm (by rw [← hd, hend, hidle]; simp)
    · obtain ⟨k, hk, h1, -⟩ := later n (by omega)
      rw [h1] at hm
      obtain ⟨j, i, f1, f2, f3⟩ := rp1 v hv k m hm
      exact ⟨as.length + j, i, by omega, by rw [(e2 j).1]; exact f2, by rw [(e2 j).2]; exact f3⟩
  · by_cases hn : n ≤ as.length
    · obtain ⟨d, hd⟩ := Nat.exists_eq_add_of_le hn
      by_cases hx' : x ∈ (ρ.st (n + d)).way
      · rw [← hd, hend, show σ = ρ₁.st 0 from r0.symm] at hx'
        obtain ⟨j, i, f1, f2, f3⟩ := rp2 0 x hx'
        exact ⟨as.length + j, i, by omega, by rw [(e2 j).1]; exact f2, by rw [(e2 j).2]; exact f3⟩
      · exact (ρ.left d n).2 x hx hx'
    · obtain ⟨k, hk, h1, -⟩ := later n (by omega)
      rw [h1] at hx
      obtain ⟨j, i, f1, f2, f3⟩ := rp2 k x hx
      exact ⟨as.length + j, i, by omega, by rw [(e2 j).1]; exact f2, by rw [(e2 j).2]; exact f3⟩
  · intro n
    by_cases hn : n ≤ as.length
    · exact e3 _ hl n hn
    · obtain ⟨d, rfl⟩ := Nat.exists_eq_add_of_le (Nat.le_of_not_le hn)
      clear hn
      induction d with
      | zero => exact e3 _ hl _ (Nat.le_refl _)
      | succ d ih => exact live_same (same_step (hlater (as.length + d) (by omega)).1 (ρ.ok (as.length + d)) v) ih

end LP.Grid
