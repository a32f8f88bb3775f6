import Verif.Lemma.GridEndless
/-!
# Messages travel along every route
-/
namespace LP.Grid
open LP.Bus (BMsg Delivery received due TopicRule)
open LP.Net (Hop Wired Route stop after)

namespace Endless.Operating
variable {net : List Hop} {e : Ends} {ρ : Endless net e} {ns : List Nat} (H : ρ.Operating ns)
include H

theorem listens {h : Hop} (hh : h ∈ net) : ρ.Listens h.src (e.sub h) := ⟨(H.up 0 h hh).1, fun n => (H.up n h hh).2.1⟩

theorem wants_all {h : Hop} (hh : h ∈ net) (m : BMsg) : ρ.wants h.src (e.sub h) m = true := by
  simp [wants, TopicRule, (H.up 0 h hh).2.2.1]

theorem arrivals_grows (h : Hop) {n m : Nat} (hm : n ≤ m) : arrivals (ρ.st n) h <+: arrivals (ρ.st m) h := (H.grows _ hm).1.filter _

/-- What a link has begun to publish is published at some time. -/
theorem lands (hw : Wired ns net) {h : Hop} (hh : h ∈ net) {n : Nat} {m : BMsg} (hm : some (h, m) ∈ (ρ.st n).calls h.dst) :
    ∃ k, n ≤ k ∧ (arrivals (ρ.st n) h).length < (arrivals (ρ.st k) h).length := by
  obtain ⟨ν, hmi⟩ := (H.kept hw n).mirror
  obtain ⟨i, hi⟩ := List.mem_iff_getElem?.1 hm
  obtain ⟨k, j, hk, h1, h2⟩ := H.prompt.1 h.dst (wired_inside hw h hh).2 n _ (List.mem_of_getElem? (hmi.callsOf _ _ _ _ hi).2)
  refine ⟨k + 1, by omega, ?_⟩
  have := ρ.ok k
  rw [h2] at this
  simp only [step, Bus.step, h1, Option.some.injEq] at this
  have hp : ((ρ.st (k + 1)).host h.dst).published = ((ρ.st k).host h.dst).published ++ [Net.arrive h m] := by
    rw [← this]; simp [put_same]
  have hecho : Net.echo h.inn (Net.arrive h m) = true := by
    rw [Net.echo_iff, arrive_sender]; exact ⟨m.sender, by simp⟩
  have : arrivals (ρ.st (k + 1)) h = arrivals (ρ.st k) h ++ [Net.arrive h m] := by
    rw [arrivals, hp, List.filter_append]; simp [hecho, arrivals]
  rw [this, List.length_append]
  have := (H.arrivals_grows h hk).length_le
  simp only [List.length_singleton]; omega

/-- What is on its way is published at some time. -/
theorem comes (hw : Wired ns net) {h : Hop} (hh : h ∈ net) {n : Nat} {m : BMsg} (hm : (h, m) ∈ (ρ.st n).way) :
    ∃ k, n ≤ k ∧ (arrivals (ρ.st n) h).length < (arrivals (ρ.st k) h).length := by
  obtain ⟨k, i, hk, h1, h2⟩ := H.prompt.2 n _ hm
  have hs := ρ.ok k
  rw [h2] at hs
  simp only [step, h1] at hs
  cases hb : Bus.step ((ρ.st k).host h.dst) (.publish (e.bus h) (Net.arrive h m)) with
  | none => simp [hb] at hs
  | some b =>
    have hlt : ((ρ.st k).host h.dst).inflight.length < b.inflight.length := by
      have ha := (H.up k h hh).2.2.2
      simp only [Bus.step] at hb
      split at hb <;> cases hb
      simp [Bus.publishMsg, ha]
    simp only [hb, Option.some.injEq, hlt, if_true, List.append_nil] at hs
    have : some (h, m) ∈ (ρ.st (k + 1)).calls h.dst := by rw [← hs]; simp [put_same]
    obtain ⟨k', hk', hl⟩ := H.lands hw hh this
    have := (H.arrivals_grows h (show n ≤ k + 1 by omega)).length_le
    exact ⟨k', by omega, by omega⟩

/-- What a link has sent is published at the other end at some time. -/
theorem delivers (hw : Wired ns net) {h : Hop} (hh : h ∈ net) (n : Nat) :
    ∃ k, n ≤ k ∧ (sent e (ρ.st n) h).map (Net.arrive h) <+: arrivals (ρ.st k) h := by
  suffices Hj : ∀ j, j ≤ (sent e (ρ.st n) h).length → ∃ k, n ≤ k ∧ j ≤ (arrivals (ρ.st k) h).length by
    obtain ⟨k, hk, hl⟩ := Hj _ (Nat.le_refl _)
    refine ⟨k, hk, ?_⟩
    have h1 : (sent e (ρ.st n) h).map (Net.arrive h) <+: (sent e (ρ.st k) h).map (Net.arrive h) := (H.sent_grows h hk).map _
    have h2 : arrivals (ρ.st k) h <+: (sent e (ρ.st k) h).map (Net.arrive h) := ⟨_, line_eq ((H.kept hw k).line h hh) (H.lost k)⟩
    exact List.prefix_of_prefix_length_le h1 h2 (by rw [List.length_map]; exact hl)
  intro j
  induction j with
  | zero => intro _; exact ⟨n, Nat.le_refl _, Nat.zero_le _⟩
  | succ j ih =>
    intro hj
    obtain ⟨k, hk, hl⟩ := ih (by omega)
    by_cases hlt : j + 1 ≤ (arrivals (ρ.st k) h).length
    · exact ⟨k, hk, hlt⟩
    · have hk' := (H.kept hw k).line h hh
      have hc := hk'.count
      rw [H.lost k] at hc
      simp only [show on h ([] : List (Hop × BMsg)) = [] from rfl, List.length_nil, Nat.add_zero] at hc
      have := (H.sent_grows h hk).length_le
      suffices ∃ k', k ≤ k' ∧ (arrivals (ρ.st k) h).length < (arrivals (ρ.st k') h).length by
        obtain ⟨k', h1, h2⟩ := this
        exact ⟨k', by omega, by omega⟩
      by_cases hf : flying (ρ.st k) h = []
      · have hon : on h (ρ.st k).way ≠ [] := by
          intro h0
          rw [hf, h0] at hc
          simp at hc; omega
        obtain ⟨x, t, hx⟩ := List.exists_cons_of_ne_nil hon
        have hx : x ∈ on h (ρ.st k).way := by rw [hx]; exact List.mem_cons_self
        obtain ⟨hx', hxe⟩ := List.mem_filter.1 hx
        obtain ⟨g, m⟩ := x
        simp only [decide_eq_true_eq] at hxe
        subst hxe
        exact H.comes hw hh hx'
      · obtain ⟨x, t, hx⟩ := List.exists_cons_of_ne_nil hf
        have hx : x ∈ flying (ρ.st k) h := by rw [hx]; exact List.mem_cons_self
        obtain ⟨hx', hxe⟩ := List.mem_filter.1 hx
        obtain ⟨g, m⟩ := x
        simp only [decide_eq_true_eq] at hxe
        subst hxe
        simp only [List.mem_filterMap, id] at hx'
        obtain ⟨y, hy, rfl⟩ := hx'
        exact H.lands hw hh hy

/-- What a link takes is published at the other end at some time. -/
theorem hop (hw : Wired ns net) {h : Hop} (hh : h ∈ net) (n : Nat) :
    ∃ k, n ≤ k ∧ (offered (ρ.st n) h).map (Net.arrive h) <+: arrivals (ρ.st k) h := by
  obtain ⟨k, hk, h1⟩ := H.hears h.src (hw.inside h hh) (e.sub h) (H.listens hh) n
  rw [List.filter_eq_self.mpr (fun m _ => H.wants_all hh m)] at h1
  obtain ⟨k', hk', h2⟩ := H.delivers hw hh k
  exact ⟨k', by omega, ((h1.filter _).map _).trans h2⟩

/-- What a host publishes makes every journey. -/
theorem travels (hw : Wired ns net) {o : Nat} : ∀ {r : List Hop}, Route net o r → ∀ n,
    ∃ k, n ≤ k ∧ (own (ρ.st n) o).map (fun m => after m r) <+: ((ρ.st k).host (stop o r)).published.filter (madeJourney net o r)
  | [], _, n => by
    refine ⟨n, Nat.le_refl _, ?_⟩
    have e1 : ((ρ.st n).host (stop o [])).published.filter (madeJourney net o []) = own (ρ.st n) o := by
      rw [(H.kept hw n).own o]
      exact List.filter_congr (fun m _ => journey_nil net o m)
    have e2 : (own (ρ.st n) o).map (fun m => after m []) = own (ρ.st n) o := List.map_id' _
    rw [e1, e2]
  | h :: r, hr, n => by
    obtain ⟨k, hk, ih⟩ := travels hw hr.2.2.2 n
    obtain ⟨k', hk', h1⟩ := H.hop hw hr.1 k
    refine ⟨k', by omega, ?_⟩
    have e1 : ((ρ.st k').host (stop o (h :: r))).published.filter (madeJourney net o (h :: r)) =
        (arrivals (ρ.st k') h).filter (madeJourney net o (h :: r)) :=
      (filter_swallow (fun m hm => journey_came hm)).symm
    have e2 : ((offered (ρ.st k) h).map (Net.arrive h)).filter (madeJourney net o (h :: r)) =
        (((ρ.st k).host (stop o r)).published.filter (madeJourney net o r)).map (Net.arrive h) := by
      rw [List.filter_map, ← hr.2.1]
      congr 1
      have : madeJourney net o (h :: r) ∘ Net.arrive h = madeJourney net o r := funext (journey_arrive net o h r)
      rw [this, offered]
      refine filter_swallow (fun m hm => ?_)
      rw [journey_goes hw hr hm]; rfl
    have e3 : ((own (ρ.st n) o).map (fun m => after m r)).map (Net.arrive h) = (own (ρ.st n) o).map (fun m => after m (h :: r)) := by
      rw [List.map_map]
      exact List.map_congr_left (fun m _ => Net.arrive_after h m r)
    rw [e1, ← e3]
    exact (ih.map _).trans (by rw [← e2]; exact h1.filter _)

end Endless.Operating
end LP.Grid
