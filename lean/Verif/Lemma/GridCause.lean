import Verif.Lemma.GridOrder
import Verif.Lemma.GridSettle
/-!
# What has been published where before a message is
-/
namespace LP.Grid
open LP.Bus (BMsg Delivery received due TopicRule)
open LP.Net (Hop Wired Route stop after)

/-! ## One connection -/

/-- What could be sent over `h`. -/
def offered (σ : St) (h : Hop) : List BMsg := (σ.host h.src).published.filter (fun m => !Net.echo h.out m)

theorem sent_sublist {e : Ends} {σ : St} {h : Hop} (hr : Bus.Reachable (σ.host h.src)) : (sent e σ h).Sublist (offered σ h) := by
  exact ((heard_sublist hr (e.sub h)).trans List.filter_sublist).filter _

theorem arrivals_sublist {net : List Hop} {e : Ends} {σ : St} (hk : Kept net e σ) {h : Hop} (hh : h ∈ net) :
    (arrivals σ h).Sublist ((offered σ h).map (Net.arrive h)) := by
  obtain ⟨ν, hm⟩ := hk.mirror
  exact ((List.sublist_append_left _ _).trans (hk.line h hh).sub).trans ((sent_sublist (hm.reach _)).map _)

theorem line_eq {e : Ends} {σ : St} {h : Hop} (hl : Line e σ h) (h0 : σ.lost = []) :
    arrivals σ h ++ between σ h = (sent e σ h).map (Net.arrive h) := by
  refine hl.sub.eq_of_length ?_
  have := hl.count
  rw [h0, show on h ([] : List (Hop × BMsg)) = [] from rfl] at this
  simp only [between, List.length_append, List.length_map, List.length_nil] at this ⊢
  omega

theorem filterMap_prefix {α β : Type} (f : α → Option β) {l r : List α} (h : l <+: r) : l.filterMap f <+: r.filterMap f := by
  obtain ⟨t, rfl⟩ := h
  exact ⟨t.filterMap f, List.filterMap_append.symm⟩

/-- A served subscriber has heard the first of the messages of its topic. -/
theorem heard_prefix {net : List Hop} {e : Ends} {σ₀ σ : St} {as : List Act} (hsi : Silent σ₀) (he : exec net e σ₀ as = some σ) {v s : Nat}
    (hs : s < (σ₀.host v).w.ns) (hl : Throughout net e (fun τ => Bus.Live (τ.host v).w s) σ₀ as) (hc : ∀ v, .act v (.run .throwing) ∉ as) :
    heard σ v s <+: (σ.host v).published.filter (fun m => decide (TopicRule ((σ.host v).w.sub s).topic m.topic)) := by
  obtain ⟨l, f1, f2, f3⟩ := project he v
  have hr : Bus.Reachable (σ.host v) := (hsi.reach v).exec f1
  have := Bus.C29_stable_subscriber_receives_in_order (σ₀.host v) (σ.host v) l s (hsi.reach v) hs (f3 (fun b => Bus.Live b.w s) hl)
    (fun h => hc _ (f2 h)) f1
  rw [fates_nil (hsi.reach v) (hsi.published v), List.length_nil, List.filter_eq_self.mpr (by simp)] at this
  rw [heard, heard_pick hr.inv, ← pick_due]
  exact filterMap_prefix _ this

theorem up_first {net : List Hop} {e : Ends} {σ₀ : St} {as : List Act} (hu : Throughout net e (Up net e) σ₀ as) : Up net e σ₀ := by
  cases as <;> first | exact hu | exact hu.1

theorem all_topics {net : List Hop} {e : Ends} {σ : St} (hu : Up net e σ) {h : Hop} (hh : h ∈ net) (l : List BMsg) :
    l.filter (fun m => decide (TopicRule ((σ.host h.src).w.sub (e.sub h)).topic m.topic)) = l := by
  rw [List.filter_eq_self]
  intro m _
  simp [TopicRule, (hu h hh).2.2.1]

/-- With the links in operation and no callback throwing, what has arrived over a connection are the first of the messages it takes. -/
theorem arrivals_prefix {net : List Hop} {e : Ends} {σ₀ σ : St} {as : List Act} (hsi : Silent σ₀) (he : exec net e σ₀ as = some σ)
    (hu : Throughout net e (Up net e) σ₀ as) (hc : ∀ v, .act v (.run .throwing) ∉ as) (hk : Kept net e σ) {h : Hop} (hh : h ∈ net) :
    arrivals σ h <+: (offered σ h).map (Net.arrive h) := by
  have h0 := lost_exec he (inside_silent hsi) hu hsi.lost
  have h1 : arrivals σ h <+: (sent e σ h).map (Net.arrive h) := ⟨_, line_eq (hk.line h hh) h0⟩
  refine h1.trans (List.IsPrefix.map _ ?_)
  have := heard_prefix hsi he (v := h.src) (s := e.sub h) (up_first hu h hh).1 (throughout_imp (fun τ hτ => (hτ h hh).2.1) hu) hc
  rw [all_topics (throughout_last hu he) hh] at this
  exact this.filter _

/-- Once nothing is left to do they are all of them. -/
theorem arrivals_all {ns : List Nat} {net : List Hop} {e : Ends} {σ₀ σ : St} {as : List Act} (hsi : Silent σ₀) (he : exec net e σ₀ as = some σ)
    (hu : Throughout net e (Up net e) σ₀ as) (hc : ∀ v, .act v (.run .throwing) ∉ as) (hk : Kept net e σ) (hset : Settled ns σ)
    (hin : ∀ h ∈ net, h.src ∈ ns ∧ h.dst ∈ ns) {h : Hop} (hh : h ∈ net) :
    arrivals σ h = (offered σ h).map (Net.arrive h) := by
  have h0 := lost_exec he (inside_silent hsi) hu hsi.lost
  have h1 := line_eq (hk.line h hh) h0
  obtain ⟨ν, hm⟩ := hk.mirror
  have hb : between σ h = [] := by
    have hcalls : σ.calls h.dst = [] := by
      have := hm.callsLen h.dst
      rw [(hset.1 h.dst (hin h hh).2).2] at this
      exact List.length_eq_zero_iff.mp this
    rw [between, flying, hcalls, hset.2]; rfl
  rw [hb, List.append_nil] at h1
  rw [h1]
  obtain ⟨l, f1, f2, f3⟩ := project he h.src
  have h5 := heard_all (hsi.reach h.src) (hsi.published h.src) (up_first hu h hh).1
    (f3 (fun b => Bus.Live b.w (e.sub h)) (throughout_imp (fun τ hτ => (hτ h hh).2.1) hu)) (fun h => hc _ (f2 h)) f1 (hset.1 h.src (hin h hh).1).1
  have h6 : heard σ h.src (e.sub h) = (σ.host h.src).published := by
    rw [heard, heard_pick (hm.reach h.src).inv, h5, pick_due, all_topics (throughout_last hu he) hh]
  rw [sent, offered, h6]

/-! ## Journeys -/

/-- The comparisons of lists made here. -/
structure Fit (R : List BMsg → List BMsg → Prop) : Prop where
  refl : ∀ l, R l l
  trans : ∀ {a b c}, R a b → R b c → R a c
  filter : ∀ {a b} (p : BMsg → Bool), R a b → R (a.filter p) (b.filter p)
  map : ∀ {a b} (f : BMsg → BMsg), R a b → R (a.map f) (b.map f)

theorem fit_sublist : Fit List.Sublist := ⟨.refl, .trans, fun p h => h.filter p, fun f h => h.map f⟩
theorem fit_prefix : Fit (· <+: ·) := ⟨fun _ => List.prefix_rfl, .trans, fun p h => h.filter p, fun f h => h.map f⟩
theorem fit_eq : Fit (· = ·) := ⟨fun _ => rfl, .trans, fun p h => by rw [h], fun f h => by rw [h]⟩

theorem journey_nil (net : List Hop) (o : Nat) (m : BMsg) : madeJourney net o [] m = native net o m.sender := by
  simp [madeJourney, under, trail]

theorem journey_arrive (net : List Hop) (o : Nat) (h : Hop) (r : List Hop) (m : BMsg) :
    madeJourney net o (h :: r) (Net.arrive h m) = madeJourney net o r m := by
  have e1 : (trail (h :: r)).isPrefixOf (Net.arrive h m).sender = (trail r).isPrefixOf m.sender := by
    rw [Bool.eq_iff_iff, List.isPrefixOf_iff_prefix, List.isPrefixOf_iff_prefix, arrive_sender, trail, List.prefix_append_right_inj]
  have e2 : (Net.arrive h m).sender.drop (trail (h :: r)).length = m.sender.drop (trail r).length := by
    rw [arrive_sender, trail, List.length_append, ← List.drop_drop, List.drop_left]
  rw [madeJourney, madeJourney, under, under, e1, e2]

theorem journey_came {net : List Hop} {o : Nat} {h : Hop} {r : List Hop} {m : BMsg} (hj : madeJourney net o (h :: r) m = true) :
    Net.echo h.inn m = true := by
  simp only [madeJourney, under, Bool.and_eq_true, List.isPrefixOf_iff_prefix] at hj
  obtain ⟨t, ht⟩ := hj.1
  rw [Net.echo_iff]
  exact ⟨trail r ++ t, by rw [← ht, trail]; simp⟩

theorem came_one {n l : Str} (hn : slash ∉ n) (hl : slash ∉ l) {m : BMsg} (h1 : Net.echo n m = true) (h2 : Net.echo l m = true) : n = l := by
  rw [Net.echo_iff] at h1 h2
  obtain ⟨s, hs⟩ := h2
  rw [hs] at h1
  exact (Net.fromLink_arrived hn hl).mp h1

theorem Wired.inn {ns : List Nat} {net : List Hop} (hw : Wired ns net) {h : Hop} (hh : h ∈ net) : slash ∉ h.inn := hw.names h.back (hw.back h hh)

theorem route_head {net : List Hop} {o : Nat} {g : Hop} {r : List Hop} (h : Route net o (g :: r)) : g ∈ net := h.1

theorem journey_goes {ns : List Nat} {net : List Hop} (hw : Wired ns net) {o : Nat} {h : Hop} {r : List Hop} (hr : Route net o (h :: r)) {m : BMsg}
    (hj : madeJourney net o r m = true) : Net.echo h.out m = false := by
  obtain ⟨hh, hsrc, hne, hr'⟩ := hr
  rw [Bool.eq_false_iff]
  intro hx
  cases r with
  | nil =>
    rw [journey_nil, native_iff] at hj
    exact hj h hh hsrc ((Net.echo_iff _ _).mp hx)
  | cons g r =>
    exact hne g (by simp) (came_one (hw.names h hh) (Wired.inn hw (route_head hr')) hx (journey_came hj))

theorem filter_swallow {α : Type} {p q : α → Bool} {l : List α} (h : ∀ x, p x = true → q x = true) : (l.filter q).filter p = l.filter p := by
  rw [List.filter_filter]
  refine List.filter_congr (fun x _ => ?_)
  by_cases hp : p x = true
  · rw [hp, h x hp]; rfl
  · rw [Bool.not_eq_true] at hp; rw [hp]; rfl

theorem filter_swap {α : Type} (p q : α → Bool) (l : List α) : (l.filter p).filter q = (l.filter q).filter p := by
  rw [List.filter_filter, List.filter_filter]
  exact List.filter_congr (fun x _ => Bool.and_comm _ _)

/-- Comparing what arrived over each connection is comparing what made each journey. -/
theorem along {R : List BMsg → List BMsg → Prop} (hR : Fit R) {ns : List Nat} {net : List Hop} (hw : Wired ns net) {σ : St}
    (hhop : ∀ h ∈ net, R (arrivals σ h) ((offered σ h).map (Net.arrive h))) (hown : Own net σ) {o : Nat} : ∀ {r : List Hop}, Route net o r →
    R ((σ.host (stop o r)).published.filter (madeJourney net o r)) ((own σ o).map (fun m => after m r))
  | [], _ => by
    have e1 : (σ.host (stop o [])).published.filter (madeJourney net o []) = own σ o := by
      rw [hown o]
      exact List.filter_congr (fun m _ => journey_nil net o m)
    have e2 : (own σ o).map (fun m => after m []) = own σ o := List.map_id' _
    rw [e1, e2]; exact hR.refl _
  | h :: r, hr => by
    have ih := along hR hw hhop hown (o := o) hr.2.2.2
    have e1 : (σ.host (stop o (h :: r))).published.filter (madeJourney net o (h :: r)) = (arrivals σ h).filter (madeJourney net o (h :: r)) :=
      (filter_swallow (fun m hm => journey_came hm)).symm
    have e2 : ((offered σ h).map (Net.arrive h)).filter (madeJourney net o (h :: r)) =
        ((σ.host (stop o r)).published.filter (madeJourney net o r)).map (Net.arrive h) := by
      rw [List.filter_map, ← hr.2.1]
      congr 1
      have : madeJourney net o (h :: r) ∘ Net.arrive h = madeJourney net o r := funext (journey_arrive net o h r)
      rw [this, offered]
      refine filter_swallow (fun m hm => ?_)
      rw [journey_goes hw hr hm]; rfl
    have e3 : ((own σ o).map (fun m => after m r)).map (Net.arrive h) = (own σ o).map (fun m => after m (h :: r)) := by
      rw [List.map_map]
      exact List.map_congr_left (fun m _ => Net.arrive_after h m r)
    rw [e1, ← e3]
    exact hR.trans (hR.filter _ (hhop h hr.1)) (by rw [e2]; exact hR.map _ ih)

/-! ## Causes -/

/-- What the two ends of a connection have published before a message that came over it. -/
def Past (σ : St) (h : Hop) : Prop := ∀ X b' X', (σ.host h.dst).published = X ++ b' :: X' → Net.echo h.inn b' = true →
  ∃ W b W', (σ.host h.src).published = W ++ b :: W' ∧ b' = Net.arrive h b ∧ Net.echo h.out b = false ∧
    X.filter (Net.echo h.inn) = (W.filter (fun m => !Net.echo h.out m)).map (Net.arrive h) ∧
    W.filter (Net.echo h.out) <+: (X.filter (fun m => !Net.echo h.inn m)).map (Net.arrive h.back)

theorem past_last {σ : St} {h : Hop} (h1 : arrivals σ h <+: (offered σ h).map (Net.arrive h))
    (h2 : arrivals σ h.back <+: (offered σ h.back).map (Net.arrive h.back)) {X : List BMsg} {b' : BMsg} (hx : (σ.host h.dst).published = X ++ [b'])
    (hb : Net.echo h.inn b' = true) :
    ∃ W b W', (σ.host h.src).published = W ++ b :: W' ∧ b' = Net.arrive h b ∧ Net.echo h.out b = false ∧
      X.filter (Net.echo h.inn) = (W.filter (fun m => !Net.echo h.out m)).map (Net.arrive h) ∧
      W.filter (Net.echo h.out) <+: (X.filter (fun m => !Net.echo h.inn m)).map (Net.arrive h.back) := by
  have e1 : arrivals σ h = X.filter (Net.echo h.inn) ++ [b'] := by rw [arrivals, hx, List.filter_append]; simp [hb]
  have e2 : (offered σ h.back) = X.filter (fun m => !Net.echo h.inn m) := by
    rw [offered, show h.back.src = h.dst from rfl, hx, List.filter_append]; simp [hb, Hop.back]
  rw [e1] at h1
  obtain ⟨t, ht⟩ := h1
  rw [List.append_assoc] at ht
  obtain ⟨A, B, k1, k2, k3⟩ := List.map_eq_append_iff.mp ht.symm
  obtain ⟨b, C, k4, k5, k6⟩ := List.map_eq_cons_iff.mp (by simpa using k3)
  subst k4
  obtain ⟨P, Q, k7, k8, k9⟩ := List.filter_eq_append_iff.mp k1
  obtain ⟨P', Q', k10, k11, k12, k13⟩ := List.filter_eq_cons_iff.mp k9
  refine ⟨P ++ P', b, Q', by rw [k7, k10]; simp, k5.symm, by simpa using k12, ?_, ?_⟩
  · have : P'.filter (fun m => !Net.echo h.out m) = [] := List.filter_eq_nil_iff.mpr k11
    rw [List.filter_append, k8, this, List.append_nil, k2]
  · rw [e2] at h2
    refine List.IsPrefix.trans ?_ h2
    rw [arrivals]
    exact List.IsPrefix.filter _ ⟨b :: Q', by rw [show h.back.dst = h.src from rfl, k7, k10]; simp⟩

theorem past_grows {σ σ' : St} {h : Hop} (hp : Past σ h) (hg : ∀ u, (σ'.host u).published = (σ.host u).published ∨
    ∃ m, (σ'.host u).published = (σ.host u).published ++ [m]) (h1 : arrivals σ' h <+: (offered σ' h).map (Net.arrive h))
    (h2 : arrivals σ' h.back <+: (offered σ' h.back).map (Net.arrive h.back)) : Past σ' h := by
  have hgr : ∃ t, (σ'.host h.src).published = (σ.host h.src).published ++ t := by
    rcases hg h.src with h | ⟨m, h⟩
    · exact ⟨[], by rw [h, List.append_nil]⟩
    · exact ⟨[m], h⟩
  obtain ⟨t, ht⟩ := hgr
  have old : ∀ X b' X', (σ.host h.dst).published = X ++ b' :: X' → Net.echo h.inn b' = true → ∃ W b W', (σ'.host h.src).published = W ++ b :: W' ∧
      b' = Net.arrive h b ∧ Net.echo h.out b = false ∧ X.filter (Net.echo h.inn) = (W.filter (fun m => !Net.echo h.out m)).map (Net.arrive h) ∧
      W.filter (Net.echo h.out) <+: (X.filter (fun m => !Net.echo h.inn m)).map (Net.arrive h.back) := by
    intro X b' X' hx hb
    obtain ⟨W, b, W', g1, g2⟩ := hp X b' X' hx hb
    exact ⟨W, b, W' ++ t, by rw [ht, g1]; simp, g2⟩
  intro X b' X' hx hb
  rcases hg h.dst with hd | ⟨m, hd⟩
  · exact old X b' X' (by rw [← hd, hx]) hb
  · by_cases hX : X' = []
    · subst hX
      exact past_last h1 h2 hx hb
    · refine old X b' X'.dropLast ?_ hb
      have : (σ.host h.dst).published = ((σ.host h.dst).published ++ [m]).dropLast := by simp
      rw [this, ← hd, hx, List.dropLast_append_of_ne_nil (by simp), List.dropLast_cons_of_ne_nil hX]

theorem grows_step {net : List Hop} {e : Ends} {σ σ' : St} {a : Act} (hr : ∀ v, Bus.Reachable (σ.host v)) (hs : step net e σ a = some σ') (u : Nat) :
    (σ'.host u).published = (σ.host u).published ∨ ∃ m, (σ'.host u).published = (σ.host u).published ++ [m] := by
  have key : ∀ v a b, Bus.step (σ.host v) a = some b → σ'.host = put σ.host v b →
      (σ'.host u).published = (σ.host u).published ∨ ∃ m, (σ'.host u).published = (σ.host u).published ++ [m] := by
    intro v a b hb he
    by_cases hu : u = v
    · subst hu
      rw [he, put_same]
      rcases kinds (hr u).inv hb with ⟨i, m, rfl, h0, h3, h1, h2⟩ | ⟨hnp, h1, h2, ms, h3⟩ | ⟨hnp, h1, h3, d, h2⟩
      · exact .inr ⟨m, h1⟩
      · exact .inl h1
      · exact .inl h1
    · rw [he, put_other _ _ hu]; exact .inl rfl
  cases a with
  | act v a =>
    simp only [step] at hs
    split at hs <;> try cases hs
    exact key v a _ (by assumption) rfl
  | receive k =>
    simp only [step] at hs
    split at hs <;> try cases hs
    split at hs <;> cases hs
    exact key _ _ _ (by assumption) rfl

theorem inOrder_front {net : List Hop} {e : Ends} : ∀ {as bs : List Act} {σ : St}, InOrder net e σ (as ++ bs) → InOrder net e σ as
  | [], _, _, _ => trivial
  | _ :: _, _, _, h => ⟨h.1, fun τ hτ => inOrder_front (h.2 τ hτ)⟩

theorem throughout_front {net : List Hop} {e : Ends} {P : St → Prop} : ∀ {as bs : List Act} {σ : St}, Throughout net e P σ (as ++ bs) → Throughout net e P σ as
  | [], [], _, h => h
  | [], _ :: _, _, h => h.1
  | _ :: _, _, _, h => ⟨h.1, fun τ hτ => throughout_front (h.2 τ hτ)⟩

theorem exec_snoc {net : List Hop} {e : Ends} : ∀ {as : List Act} {a : Act} {σ σ' : St}, exec net e σ (as ++ [a]) = some σ' →
    ∃ τ, exec net e σ as = some τ ∧ step net e τ a = some σ'
  | [], a, σ, σ', h => by
    obtain ⟨τ, h1, h2⟩ := exec_cons h
    cases h2
    exact ⟨σ, rfl, h1⟩
  | _ :: _, _, _, _, h => by
    obtain ⟨τ, h1, h2⟩ := exec_cons h
    obtain ⟨ρ, h3, h4⟩ := exec_snoc h2
    exact ⟨ρ, by simp only [exec, h1]; exact h3, h4⟩

theorem past_exec {ns : List Nat} {net : List Hop} {e : Ends} (hw : Wired ns net) {σ₀ : St} (hsi : Silent σ₀) (as : List Act) :
    ∀ {σ : St}, exec net e σ₀ as = some σ → InOrder net e σ₀ as → Proper net σ → Throughout net e (Up net e) σ₀ as →
      (∀ v, .act v (.run .throwing) ∉ as) → ∀ h ∈ net, Past σ h := by
  induction as using List.reverseRecOn with
  | nil =>
    intro σ he _ _ _ _ h hh X b' X' hx
    cases he
    rw [hsi.published] at hx
    simp at hx
  | append_singleton as a ih =>
    intro σ he ho hp hu hc h hh
    obtain ⟨τ, h1, h2⟩ := exec_snoc he
    have hp' : Proper net τ := fun x hx => hp x (injected_step h2 x hx)
    have hk : Kept net e σ := kept_exec hw he ho hp (kept_silent hsi)
    have hk' : Kept net e τ := kept_exec hw h1 (inOrder_front ho) hp' (kept_silent hsi)
    obtain ⟨ν, hm⟩ := hk'.mirror
    exact past_grows (ih h1 (inOrder_front ho) hp' (throughout_front hu) (fun v hv => hc v (List.mem_append_left _ hv)) h hh)
      (grows_step hm.reach h2) (arrivals_prefix hsi he hu hc hk hh) (arrivals_prefix hsi he hu hc hk (hw.back h hh))

/-- How many of the messages have made a journey. -/
def tally (net : List Hop) (o : Nat) (r : List Hop) (l : List BMsg) : Nat := (l.filter (madeJourney net o r)).length

theorem route_onward {net : List Hop} {u : Nat} {h : Hop} (hh : h ∈ net) {q : List Hop} (hq : Route net u q) (hs : stop u q = h.src)
    {ns : List Nat} (hw : Wired ns net) : Route net u (onward h q) ∧ stop u (onward h q) = h.dst := by
  cases q with
  | nil => exact ⟨⟨hh, hs.symm, by simp, trivial⟩, rfl⟩
  | cons g q =>
    simp only [onward]
    split
    · rename_i hi
      have : g.back = h := hw.one g.back (hw.back g hq.1) h hh hs hi
      have hd : g.src = h.dst := by rw [← this]; rfl
      exact ⟨hq.2.2.2, by rw [← hd]; exact hq.2.1.symm⟩
    · rename_i hi
      exact ⟨⟨hh, hs.symm, by intro x hx; simp only [List.head?_cons, Option.mem_some_iff] at hx; subst hx; exact fun h => hi h.symm, hq⟩, rfl⟩

theorem tally_onward {ns : List Nat} {net : List Hop} (hw : Wired ns net) {u : Nat} {h : Hop} (hh : h ∈ net) {q : List Hop} (hq : Route net u q)
    (hs : stop u q = h.src) {W X : List BMsg} (h1 : X.filter (Net.echo h.inn) = (W.filter (fun m => !Net.echo h.out m)).map (Net.arrive h))
    (h2 : W.filter (Net.echo h.out) <+: (X.filter (fun m => !Net.echo h.inn m)).map (Net.arrive h.back)) :
    tally net u q W ≤ tally net u (onward h q) X := by
  have straight : Route net u (h :: q) → tally net u q W ≤ tally net u (h :: q) X := by
    intro hr
    have e1 : X.filter (madeJourney net u (h :: q)) = (W.filter (madeJourney net u q)).map (Net.arrive h) := by
      rw [← filter_swallow (l := X) (fun m (hm : madeJourney net u (h :: q) m = true) => journey_came hm), h1, List.filter_map]
      have : madeJourney net u (h :: q) ∘ Net.arrive h = madeJourney net u q := funext (journey_arrive net u h q)
      rw [this]
      congr 1
      refine filter_swallow (fun m hm => ?_)
      rw [journey_goes hw hr hm]; rfl
    rw [tally, tally, e1, List.length_map]
  cases q with
  | nil => exact straight ⟨hh, hs.symm, by simp, trivial⟩
  | cons g q =>
    simp only [onward]
    split
    · rename_i hi
      have hb : g.back = h := hw.one g.back (hw.back g hq.1) h hh hs hi
      have hg : h.back = g := by rw [← hb]; rfl
      rw [hg] at h2
      have e1 : W.filter (madeJourney net u (g :: q)) = (W.filter (Net.echo h.out)).filter (madeJourney net u (g :: q)) :=
        (filter_swallow (fun m hm => by rw [← hi]; exact journey_came hm)).symm
      have e2 := (h2.filter (madeJourney net u (g :: q))).length_le
      rw [← e1, List.filter_map, List.length_map] at e2
      have : madeJourney net u (g :: q) ∘ Net.arrive g = madeJourney net u q := funext (journey_arrive net u g q)
      rw [this] at e2
      exact Nat.le_trans e2 (List.filter_sublist.filter _).length_le
    · rename_i hi
      exact straight ⟨hh, hs.symm, by intro x hx; simp only [List.head?_cons, Option.mem_some_iff] at hx; subst hx; exact fun h => hi h.symm, hq⟩

theorem route_onwards {ns : List Nat} {net : List Hop} (hw : Wired ns net) {u o : Nat} {q : List Hop} (hq : Route net u q) (hs : stop u q = o) :
    ∀ {r : List Hop}, Route net o r → Route net u (onwards r q) ∧ stop u (onwards r q) = stop o r
  | [], _ => ⟨hq, hs⟩
  | _ :: _, hr => by
    obtain ⟨i1, i2⟩ := route_onwards hw hq hs hr.2.2.2
    exact route_onward hr.1 i1 (i2.trans hr.2.1.symm) hw

/-- What the host a message comes from had published before it, the hosts it gets to have published before it. -/
theorem causes {ns : List Nat} {net : List Hop} (hw : Wired ns net) {σ : St} (hpast : ∀ h ∈ net, Past σ h) {o : Nat} : ∀ {r : List Hop}, Route net o r →
    ∀ {X X' : List BMsg} {b' : BMsg}, (σ.host (stop o r)).published = X ++ b' :: X' → madeJourney net o r b' = true →
    ∃ W b W', (σ.host o).published = W ++ b :: W' ∧ b' = after b r ∧ native net o b.sender = true ∧
      ∀ u q, Route net u q → stop u q = o → tally net u q W ≤ tally net u (onwards r q) X
  | [], _, X, X', b', hx, hj => ⟨X, b', X', hx, rfl, by rw [← journey_nil]; exact hj, fun _ _ _ _ => Nat.le_refl _⟩
  | h :: r, hr, X, X', b', hx, hj => by
    obtain ⟨W, b, W', k1, k2, k3, k4, k5⟩ := hpast h hr.1 X b' X' hx (journey_came hj)
    rw [k2, journey_arrive] at hj
    rw [hr.2.1] at k1
    obtain ⟨V, a, V', j1, j2, j3, j4⟩ := causes hw hpast hr.2.2.2 k1 hj
    refine ⟨V, a, V', j1, by rw [k2, j2, Net.arrive_after], j3, fun u q hq hs => ?_⟩
    obtain ⟨i1, i2⟩ := route_onwards hw hq hs hr.2.2.2
    exact Nat.le_trans (j4 u q hq hs) (tally_onward hw hr.1 i1 (i2.trans hr.2.1.symm) k4 k5)

end LP.Grid
