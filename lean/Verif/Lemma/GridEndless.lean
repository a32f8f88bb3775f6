import Verif.Lemma.GridCause
import Verif.Lemma.Answered
import Verif.Spec.GridEndless
/-!
# Networks of hosts on executions without end
-/
namespace LP.Grid
open LP.Bus (BMsg Delivery received due TopicRule)
open LP.Net (Hop Wired Route stop after)

/-- Every event is one event of each host, or none. -/
theorem host_image {net : List Hop} {e : Ends} {σ σ' : St} {a : Act} (h : step net e σ a = some σ') (v : Nat) :
    (σ'.host v = σ.host v ∧ ∀ x, a ≠ .act v x) ∨ (∃ x, a = .act v x ∧ Bus.step (σ.host v) x = some (σ'.host v)) ∨
      ∃ k g m, a = .receive k ∧ σ.way[k]? = some (g, m) ∧ g.dst = v ∧
        Bus.step (σ.host v) (.publish (e.bus g) (Net.arrive g m)) = some (σ'.host v) := by
  cases a with
  | act u x =>
    simp only [step] at h
    cases hb : Bus.step (σ.host u) x with
    | none => simp [hb] at h
    | some b =>
      simp only [hb, Option.some.injEq] at h
      by_cases ev : v = u
      · subst ev
        refine .inr (.inl ⟨x, rfl, ?_⟩)
        rw [hb, ← h]; simp [put_same]
      · refine .inl ⟨by rw [← h]; exact put_other _ _ ev, fun y hy => ?_⟩
        cases hy; exact ev rfl
  | receive k =>
    simp only [step] at h
    cases hk : σ.way[k]? with
    | none => simp [hk] at h
    | some x =>
      obtain ⟨g, m⟩ := x
      simp only [hk] at h
      cases hb : Bus.step (σ.host g.dst) (.publish (e.bus g) (Net.arrive g m)) with
      | none => simp [hb] at h
      | some b =>
        simp only [hb, Option.some.injEq] at h
        by_cases ev : v = g.dst
        · subst ev
          refine .inr (.inr ⟨k, g, m, rfl, hk, rfl, ?_⟩)
          rw [hb, ← h]; simp [put_same]
        · exact .inl ⟨by rw [← h]; exact put_other _ _ ev, fun y hy => by cases hy⟩

/-- Every event is one event of a host with a subscriber. -/
theorem host_step {net : List Hop} {e : Ends} {σ σ' : St} {a : Act} (h : step net e σ a = some σ') {v s : Nat} (hs : s < (σ.host v).w.ns) :
    ∃ x, Bus.step (σ.host v) x = some (σ'.host v) ∧ (∀ c, a = .act v (.run c) → x = .run c) ∧
      (x = .run .throwing → a = .act v (.run .throwing)) ∧ (∀ b name, x = .createChild b name → a = .act v (.createChild b name)) ∧
      ∀ i, x = .push i → a = .act v (.push i) := by
  rcases host_image h v with ⟨h1, h2⟩ | ⟨x, rfl, h2⟩ | ⟨k, g, m, rfl, _, _, h2⟩
  · exact ⟨.setCb s ((σ.host v).w.sub s).cb, by rw [h1]; exact Action.setCb_same hs, fun c hc => absurd hc (h2 _), (fun h => by cases h),
      (fun _ _ h => by cases h), fun _ h => by cases h⟩
  · exact ⟨x, h2, fun c hc => by cases hc; rfl, fun hx => by rw [hx], fun _ _ hx => by rw [hx], fun _ hx => by rw [hx]⟩
  · exact ⟨_, h2, (fun c hc => by cases hc), (fun h => by cases h), (fun _ _ h => by cases h), fun _ h => by cases h⟩

namespace Endless
variable {net : List Hop} {e : Ends} {ρ : Endless net e}

/-- What happens in the `d` moments from `n` on. -/
def cut (ρ : Endless net e) : Nat → Nat → List Act
  | _, 0 => []
  | n, d + 1 => ρ.act n :: cut ρ (n + 1) d

theorem mem_cut {a : Act} : ∀ {d n : Nat}, a ∈ ρ.cut n d → ∃ k, a = ρ.act k
  | 0, _, h => by simp [cut] at h
  | d + 1, n, h => by
    rcases List.mem_cons.1 h with h | h
    · exact ⟨n, h⟩
    · exact mem_cut h

theorem exec_cut (ρ : Endless net e) : ∀ (d n : Nat), exec net e (ρ.st n) (ρ.cut n d) = some (ρ.st (n + d))
  | 0, _ => rfl
  | d + 1, n => by
    simp only [cut, exec, ρ.ok n]
    rw [exec_cut ρ d (n + 1), show n + 1 + d = n + (d + 1) by omega]

theorem through_cut (ρ : Endless net e) {P : St → Prop} (hP : ∀ n, P (ρ.st n)) : ∀ (d n : Nat), Throughout net e P (ρ.st n) (ρ.cut n d)
  | 0, n => hP n
  | d + 1, n => ⟨hP n, fun τ hτ => by
      have := ρ.ok n
      rw [hτ, Option.some.injEq] at this
      rw [this]; exact through_cut ρ hP d (n + 1)⟩

theorem order_cut (ρ : Endless net e) (hP : ∀ n, Ordered (ρ.st n) (ρ.act n)) : ∀ (d n : Nat), InOrder net e (ρ.st n) (ρ.cut n d)
  | 0, n => trivial
  | d + 1, n => ⟨hP n, fun τ hτ => by
      have := ρ.ok n
      rw [hτ, Option.some.injEq] at this
      rw [this]; exact order_cut ρ hP d (n + 1)⟩

theorem exec0 (ρ : Endless net e) (n : Nat) : exec net e (ρ.st 0) (ρ.cut 0 n) = some (ρ.st n) := by
  have := ρ.exec_cut n 0
  rwa [Nat.zero_add] at this

/-- What a host with a subscriber does meanwhile. -/
theorem bus (ρ : Endless net e) {v s : Nat} (hs : ∀ n, s < ((ρ.st n).host v).w.ns) : ∃ β : Bus.Endless, (∀ n, β.st n = (ρ.st n).host v) ∧
    (∀ n c, ρ.act n = .act v (.run c) → β.act n = .run c) ∧ (∀ n, β.act n = .run .throwing → ρ.act n = .act v (.run .throwing)) ∧
    (∀ n b name, β.act n = .createChild b name → ρ.act n = .act v (.createChild b name)) ∧
    ∀ n i, β.act n = .push i → ρ.act n = .act v (.push i) := by
  refine ⟨⟨fun n => (ρ.st n).host v, fun n => (host_step (ρ.ok n) (hs n)).choose,
    fun n => (host_step (ρ.ok n) (hs n)).choose_spec.1⟩, fun n => rfl, ?_, ?_, ?_, ?_⟩
  · intro n; exact (host_step (ρ.ok n) (hs n)).choose_spec.2.1
  · intro n; exact (host_step (ρ.ok n) (hs n)).choose_spec.2.2.1
  · intro n; exact (host_step (ρ.ok n) (hs n)).choose_spec.2.2.2.1
  · intro n; exact (host_step (ρ.ok n) (hs n)).choose_spec.2.2.2.2

namespace Operating
variable {ns : List Nat} (H : ρ.Operating ns)
include H

theorem nothrow (n d v : Nat) : .act v (.run .throwing) ∉ ρ.cut n d := by
  intro h
  obtain ⟨k, hk⟩ := mem_cut h
  exact H.calm k v hk.symm

theorem kept (hw : Wired ns net) (n : Nat) : Kept net e (ρ.st n) :=
  kept_exec hw (ρ.exec0 n) (ρ.order_cut H.ordered n 0) (H.proper n) (kept_silent H.silent)

theorem lost (n : Nat) : (ρ.st n).lost = [] :=
  lost_exec (ρ.exec0 n) (inside_silent H.silent) (ρ.through_cut H.up n 0) H.silent.lost

theorem reach (n v : Nat) : Bus.Reachable ((ρ.st n).host v) := by
  obtain ⟨l, f1, -⟩ := project (ρ.exec0 n) v
  exact (H.silent.reach v).exec f1

theorem step_grows (n v : Nat) : ((ρ.st n).host v).published <+: ((ρ.st (n + 1)).host v).published ∧
    ((ρ.st n).host v).log <+: ((ρ.st (n + 1)).host v).log ∧ ((ρ.st n).host v).w.ns ≤ ((ρ.st (n + 1)).host v).w.ns ∧
    ∀ s, s < ((ρ.st n).host v).w.ns → (((ρ.st (n + 1)).host v).w.sub s).topic = (((ρ.st n).host v).w.sub s).topic := by
  suffices key : ∀ x, Bus.step ((ρ.st n).host v) x = some ((ρ.st (n + 1)).host v) →
      ((ρ.st n).host v).published <+: ((ρ.st (n + 1)).host v).published ∧
      ((ρ.st n).host v).log <+: ((ρ.st (n + 1)).host v).log ∧ ((ρ.st n).host v).w.ns ≤ ((ρ.st (n + 1)).host v).w.ns ∧
      ∀ s, s < ((ρ.st n).host v).w.ns → (((ρ.st (n + 1)).host v).w.sub s).topic = (((ρ.st n).host v).w.sub s).topic by
    rcases host_image (ρ.ok n) v with ⟨h1, _⟩ | ⟨x, _, h2⟩ | ⟨k, g, m, _, _, _, h2⟩
    · rw [h1]; exact ⟨List.prefix_rfl, List.prefix_rfl, Nat.le_refl _, fun _ _ => rfl⟩
    · exact key _ h2
    · exact key _ h2
  · intro x hx
    have hi := (H.reach n v).inv
    have h2 : ((ρ.st n).host v).w.ns ≤ ((ρ.st (n + 1)).host v).w.ns ∧
        ∀ s, s < ((ρ.st n).host v).w.ns → (((ρ.st (n + 1)).host v).w.sub s).topic = (((ρ.st n).host v).w.sub s).topic := by
      by_cases hr : ∃ c, x = .run c
      · obtain ⟨c, rfl⟩ := hr
        have := Bus.run_world hx
        rw [this.2.2.1, this.2.2.2.1]; exact ⟨Nat.le_refl _, fun _ _ => rfl⟩
      · have hg := (Bus.step_external hi.wok (fun c e => hr ⟨c, e⟩) hx).grows
        exact ⟨hg.2.1, fun s hs => (hg.2.2.2 s hs).2⟩
    refine ⟨?_, ?_, h2⟩
    · rcases kinds hi hx with ⟨i, m, _, _, _, h, _⟩ | ⟨_, h, _⟩ | ⟨_, h, _⟩ <;> rw [h]
      · exact List.prefix_append _ _
    · rcases kinds hi hx with ⟨i, m, _, _, _, _, h⟩ | ⟨_, _, h, _⟩ | ⟨_, _, _, d, h⟩ <;> rw [h]
      · exact List.prefix_append _ _

theorem grows (v : Nat) {n m : Nat} (h : n ≤ m) : ((ρ.st n).host v).published <+: ((ρ.st m).host v).published ∧
    ((ρ.st n).host v).log <+: ((ρ.st m).host v).log ∧ ((ρ.st n).host v).w.ns ≤ ((ρ.st m).host v).w.ns ∧
    ∀ s, s < ((ρ.st n).host v).w.ns → (((ρ.st m).host v).w.sub s).topic = (((ρ.st n).host v).w.sub s).topic := by
  induction h with
  | refl => exact ⟨List.prefix_rfl, List.prefix_rfl, Nat.le_refl _, fun _ _ => rfl⟩
  | step _ ih =>
    rename_i m _
    have := H.step_grows m v
    exact ⟨ih.1.trans this.1, ih.2.1.trans this.2.1, Nat.le_trans ih.2.2.1 this.2.2.1,
      fun s hs => (this.2.2.2 s (Nat.lt_of_lt_of_le hs ih.2.2.1)).trans (ih.2.2.2 s hs)⟩

theorem heard_grows (v s : Nat) {n m : Nat} (h : n ≤ m) : heard (ρ.st n) v s <+: heard (ρ.st m) v s :=
  ((H.grows v h).2.1.filter _).map _

theorem sent_grows (h : Hop) {n m : Nat} (hm : n ≤ m) : sent e (ρ.st n) h <+: sent e (ρ.st m) h := (H.heard_grows _ _ hm).filter _

/-- A subscriber that listens hears everything of its topic at some time. -/
theorem hears (v : Nat) (hv : v ∈ ns) (s : Nat) (hl : ρ.Listens v s) (n : Nat) :
    ∃ k, n ≤ k ∧ ((ρ.st n).host v).published.filter (ρ.wants v s) <+: heard (ρ.st k) v s := by
  have hs : ∀ n, s < ((ρ.st n).host v).w.ns := fun n => Nat.lt_of_lt_of_le hl.1 (H.grows v (Nat.zero_le n)).2.2.1
  obtain ⟨β, b1, b2, b3, b4, -⟩ := ρ.bus hs
  obtain ⟨T, hT⟩ := H.shape
  have hr0 : Bus.Reachable (β.st 0) := by rw [b1]; exact H.silent.reach v
  have hno : β.NoThrow := fun n e => H.calm n v (b3 n e)
  have hfr : β.Fair := fun n => by
    obtain ⟨m, hm, c, hc⟩ := H.fair v hv n
    exact ⟨m, hm, c, b2 m c hc⟩
  have hnb : β.NoNewBuses T := fun n hn b name e => hT n hn v b name (b4 n b name e)
  have hrun : ∀ m, ((β.st m).w.bus 0).running = true := fun m => by rw [b1]; exact H.running m v hv
  have hon : ∀ m, (β.st m).phase ≠ .off := fun m =>
    Bus.Endless.on hr0 hno (Nat.zero_le m) (fun m _ => hrun m) (by rw [b1]; exact H.started v hv)
  have deal : ∃ k, n ≤ k ∧ ((ρ.st n).host v).published.length ≤ ((ρ.st k).host v).fates.length ∧
      ((ρ.st k).host v).phase.stack = [] ∨ ((ρ.st n).host v).published = [] := by
    cases hp : ((ρ.st n).host v).published.length with
    | zero => exact ⟨0, .inr (List.eq_nil_of_length_eq_zero hp)⟩
    | succ i =>
      obtain ⟨k, hk, hd⟩ := Bus.C128_dealt_with β n i T hr0 hfr hno hnb (fun m _ => hrun m) (hon n) (by rw [b1]; omega)
      rw [b1] at hd
      refine ⟨k, .inl ⟨hk, hd.1, ?_⟩⟩
      cases hph : ((ρ.st k).host v).phase <;> first | rfl | exact absurd hph (hd.2 _ _ _ _)
  obtain ⟨k, ⟨hk, hlen, hst⟩ | hnil⟩ := deal
  · refine ⟨k, hk, ?_⟩
    obtain ⟨l, f1, f2, f3⟩ := project (ρ.exec0 k) v
    have hinv := (H.silent.reach v).inv
    have hx := Bus.live_exec hinv (Bus.live_start hinv hl.1) (f3 (fun b => Bus.Live b.w s) (ρ.through_cut hl.2 k 0))
      (fun h => H.nothrow 0 k v (f2 h)) f1
    have hg := hx.got
    rw [hst, Bus.pendS_nil, Nat.sub_zero, fates_nil (H.silent.reach v) (H.silent.published v), List.length_nil,
      List.filter_eq_self.mpr (by simp)] at hg
    have htop := (H.grows v (Nat.zero_le k)).2.2.2 s hl.1
    rw [heard, heard_pick (H.reach k v).inv, hg, htop]
    have hpre := (H.grows v hk).1
    have hcut : ∀ N, N ≤ ((ρ.st k).host v).published.length →
        (due (((ρ.st 0).host v).w.sub s).topic ((ρ.st k).host v).published 0 N).filterMap (fun i => ((ρ.st k).host v).published[i]?) =
          (((ρ.st k).host v).published.take N).filter (ρ.wants v s) := by
      intro N hN
      have h := pick_range ((ρ.st k).host v).published N hN
      rw [due, List.filterMap_filter]
      conv_rhs => rw [← h]
      rw [List.filter_filterMap]
      refine List.filterMap_congr (fun i _ => ?_)
      cases ((ρ.st k).host v).published[i]? with
      | none => simp
      | some m => by_cases hm : ρ.wants v s m = true <;> simp_all [Option.filter, wants]
    rw [hcut _ (H.reach k v).inv.len]
    refine List.IsPrefix.filter _ ?_
    rw [List.prefix_iff_eq_take.1 hpre]
    exact List.take_prefix_take_left hlen
  · exact ⟨n, Nat.le_refl _, by rw [hnil]; exact List.nil_prefix⟩

end Operating
end Endless
end LP.Grid
