import Verif.Lemma.Grid
import Verif.Prop.Net
/-!
# C126: what is published on one host is heard on every host of a tree of links

All theorems quantify over every interleaving of the bus threads, the client threads and the link threads of all hosts.
-/
namespace LP.Grid
open LP.Bus (BMsg Delivery received due TopicRule)
open LP.Net (Hop Wired Connected Acyclic Hub Plain)

/-! ## What a subscriber hears -/

theorem increasing_sublist : ∀ (n lb : Nat) (r : List Nat), r.Pairwise (· < ·) → (∀ i ∈ r, lb ≤ i ∧ i < lb + n) → r.Sublist (List.range' lb n)
  | 0, lb, r, _, h => by
    cases r with
    | nil => exact .slnil
    | cons a t => have := h a (by simp); omega
  | n + 1, lb, [], _, _ => List.nil_sublist _
  | n + 1, lb, a :: t, hp, h => by
    rw [List.range'_succ]
    rw [List.pairwise_cons] at hp
    by_cases e : a = lb
    · subst e
      refine .cons_cons _ (increasing_sublist n (a + 1) t hp.2 (fun i hi => ?_))
      have := hp.1 i hi
      have := h i (by simp [hi])
      omega
    · refine .cons _ (increasing_sublist n (lb + 1) (a :: t) (List.pairwise_cons.mpr hp) (fun i hi => ?_))
      have h1 := h i hi
      have h2 := h a (by simp)
      rcases List.mem_cons.mp hi with rfl | hi
      · omega
      · have := hp.1 i hi; omega

theorem pick_range (pub : List BMsg) : ∀ n, n ≤ pub.length → (List.range' 0 n).filterMap (fun i => pub[i]?) = pub.take n
  | 0, _ => rfl
  | n + 1, h => by
    rw [List.range'_concat, List.filterMap_append, pick_range pub n (by omega), List.take_add_one]
    have : pub[n]? = some pub[n] := List.getElem?_eq_getElem (by omega)
    simp [this]

theorem pick_due (topic : Str) (pub : List BMsg) : (due topic pub 0 pub.length).filterMap (fun i => pub[i]?) =
    pub.filter (fun m => decide (TopicRule topic m.topic)) := by
  have h := pick_range pub pub.length (Nat.le_refl _)
  rw [List.take_length] at h
  rw [due, List.filterMap_filter]
  conv_rhs => rw [← h]
  rw [List.filter_filterMap]
  refine List.filterMap_congr (fun i _ => ?_)
  cases pub[i]? with
  | none => simp
  | some m => by_cases hm : TopicRule topic m.topic <;> simp [hm, Option.filter]

theorem heard_pick {b : Bus.St} (hi : Bus.Inv b) (s : Nat) : (b.log.filter (fun d => d.sub = s)).map Delivery.msg =
    (received s b.log).filterMap (fun i => b.published[i]?) := by
  rw [received, List.filterMap_map, ← List.filterMap_eq_map]
  refine List.filterMap_congr (fun d hd => ?_)
  exact ((hi.log d (List.mem_filter.mp hd).1).2.2.1).symm

/-- In every state of a bus, what a subscriber has been called with is a selection, in order, of the published messages of its
topic. -/
theorem heard_sublist {b : Bus.St} (h : Bus.Reachable b) (s : Nat) : ((b.log.filter (fun d => d.sub = s)).map Delivery.msg).Sublist
    (b.published.filter (fun m => decide (TopicRule (b.w.sub s).topic m.topic))) := by
  have hi := h.inv
  have h1 : ((b.log.filter (fun d => d.sub = s)).map Delivery.msg).Sublist b.published := by
    rw [heard_pick hi]
    have hs := increasing_sublist b.published.length 0 (received s b.log) (Bus.C29_received_increasing b s h)
      (fun i hm => ⟨Nat.zero_le _, by have := received_lt hi s i hm; omega⟩)
    have := hs.filterMap (fun i => b.published[i]?)
    rwa [pick_range _ _ (Nat.le_refl _), List.take_length] at this
  have h2 := h1.filter (fun m => decide (TopicRule (b.w.sub s).topic m.topic))
  rwa [List.filter_eq_self.mpr] at h2
  intro m hm
  obtain ⟨d, hd, rfl⟩ := List.mem_map.mp hm
  obtain ⟨hd, hs⟩ := List.mem_filter.mp hd
  have := (Bus.C30_no_spurious_delivery b h d hd).2.2.1
  simp only [decide_eq_true_eq] at hs
  subst hs
  simpa using this

/-! ## Links in operation -/

theorem throughout_imp {net : List Hop} {e : Ends} {P Q : St → Prop} (hPQ : ∀ τ, P τ → Q τ) : ∀ {as : List Act} {σ : St},
    Throughout net e P σ as → Throughout net e Q σ as
  | [], _, h => hPQ _ h
  | _ :: _, _, h => ⟨hPQ _ h.1, fun τ hτ => throughout_imp hPQ (h.2 τ hτ)⟩

theorem throughout_last {net : List Hop} {e : Ends} {P : St → Prop} : ∀ {as : List Act} {σ σ' : St},
    Throughout net e P σ as → exec net e σ as = some σ' → P σ'
  | [], _, _, h, he => by cases he; exact h
  | _ :: _, _, _, h, he => by
    obtain ⟨τ, h1, h2⟩ := exec_cons he
    exact throughout_last (h.2 τ h1) h2

/-- Only connections of the network are used. -/
def Inside (net : List Hop) (σ : St) : Prop := (∀ x ∈ σ.way, x.1 ∈ net) ∧ ∀ v, ∀ x, some x ∈ σ.calls v → x.1 ∈ net

theorem inside_silent {net : List Hop} {σ : St} (h : Silent σ) : Inside net σ :=
  ⟨by rw [h.way]; simp, fun v x hx => by rw [h.calls] at hx; simp at hx⟩

theorem inside_step {net : List Hop} {e : Ends} {σ σ' : St} {a : Act} (h : step net e σ a = some σ') (hw : Inside net σ) :
    Inside net σ' := by
  cases a with
  | act v a =>
    simp only [step] at h
    split at h <;> cases h
    constructor
    · intro x hx
      rcases List.mem_append.mp hx with hx | hx
      · exact hw.1 x hx
      · simp only [sends, List.mem_flatMap, List.mem_map, List.mem_filter, Net.leaving] at hx
        obtain ⟨_, _, g, ⟨⟨hg, _⟩, _⟩, rfl⟩ := hx
        exact hg
    · intro u x hx
      by_cases eu : u = v
      · subst eu
        simp only [put_same] at hx
        refine hw.2 u x ?_
        have : ∀ n, some x ∈ σ.calls u ++ List.replicate n none → some x ∈ σ.calls u := by
          intro n hn
          rcases List.mem_append.mp hn with hn | hn
          · exact hn
          · cases List.eq_of_mem_replicate hn
        cases a <;> first | exact List.mem_of_mem_eraseIdx hx | exact this _ hx
      · simp only [put_other _ _ eu] at hx; exact hw.2 u x hx
  | receive k =>
    simp only [step] at h
    cases hk : σ.way[k]? with
    | none => simp [hk] at h
    | some y =>
      obtain ⟨g, m⟩ := y
      simp only [hk] at h
      split at h <;> cases h
      refine ⟨fun x hx => hw.1 x (List.mem_of_mem_eraseIdx hx), fun u x hx => ?_⟩
      by_cases eu : u = g.dst
      · subst eu
        simp only [put_same] at hx
        rcases List.mem_append.mp hx with hx | hx
        · exact hw.2 _ x hx
        · split at hx
          · simp only [List.mem_singleton, Option.some.injEq] at hx
            subst hx
            exact hw.1 _ (List.mem_of_getElem? hk)
          · simp at hx
      · simp only [put_other _ _ eu] at hx; exact hw.2 u x hx

theorem inside_exec {net : List Hop} {e : Ends} : ∀ {as : List Act} {σ σ' : St}, exec net e σ as = some σ' → Inside net σ → Inside net σ'
  | [], _, _, h, hw => by cases h; exact hw
  | _ :: _, _, _, h, hw => by
    obtain ⟨τ, h1, h2⟩ := exec_cons h
    exact inside_exec h2 (inside_step h1 hw)

/-- With the links in operation nothing is lost. -/
theorem lost_step {net : List Hop} {e : Ends} {σ σ' : St} {a : Act} (h : step net e σ a = some σ') (hw : Inside net σ)
    (hu : Up net e σ) (hl : σ.lost = []) : σ'.lost = [] := by
  cases a with
  | act v a =>
    simp only [step] at h
    split at h <;> cases h
    exact hl
  | receive k =>
    simp only [step] at h
    cases hk : σ.way[k]? with
    | none => simp [hk] at h
    | some x =>
      obtain ⟨g, m⟩ := x
      simp only [hk] at h
      cases hb : Bus.step (σ.host g.dst) (.publish (e.bus g) (Net.arrive g m)) with
      | none => simp [hb] at h
      | some b =>
        have hlt : (σ.host g.dst).inflight.length < b.inflight.length := by
          have ha := (hu g (hw.1 _ (List.mem_of_getElem? hk))).2.2.2
          simp only [Bus.step] at hb
          split at hb <;> cases hb
          simp [Bus.publishMsg, ha]
        simp only [hb, Option.some.injEq, hlt, if_true, List.append_nil] at h
        rw [← h]; exact hl

theorem lost_exec {net : List Hop} {e : Ends} : ∀ {as : List Act} {σ σ' : St}, exec net e σ as = some σ' → Inside net σ →
    Throughout net e (Up net e) σ as → σ.lost = [] → σ'.lost = []
  | [], _, _, h, _, _, hl => by cases h; exact hl
  | _ :: _, _, _, h, hw, hu, hl => by
    obtain ⟨τ, h1, h2⟩ := exec_cons h
    exact lost_exec h2 (inside_step h1 hw) (hu.2 τ h1) (lost_step h1 hw hu.1 hl)

theorem fates_nil {b : Bus.St} (h : Bus.Reachable b) (hp : b.published = []) : b.fates = [] := by
  have := h.inv.len
  rw [hp] at this
  exact List.length_eq_zero_iff.mp (Nat.le_zero.mp this)

/-- A subscriber served from the silence on has heard everything of its topic once its bus has nothing left to do. -/
theorem heard_all {b b' : Bus.St} {l : List Bus.Act} {s : Nat} (hr : Bus.Reachable b) (hp : b.published = []) (hs : s < b.w.ns)
    (hl : Bus.Throughout (fun τ => Bus.Live τ.w s) b l) (hc : .run .throwing ∉ l) (he : Bus.exec b l = some b') (hidle : Bus.Idle b') :
    received s b'.log = due (b'.w.sub s).topic b'.published 0 b'.published.length := by
  have h1 := Bus.C29_stable_subscriber_receives_all b b' l s hr hs hl hc he hidle
  rw [fates_nil hr hp] at h1
  rw [List.filter_eq_self.mpr (by simp)] at h1
  exact h1

theorem settled_quiescent {ns : List Nat} {net : List Hop} {e : Ends} {σ₀ σ : St} {as : List Act} {ν : Net.St} (hsi : Silent σ₀)
    (he : exec net e σ₀ as = some σ) (hm : Mirror net e σ ν) (hu : Throughout net e (Up net e) σ₀ as)
    (hc : ∀ v, .act v (.run .throwing) ∉ as) (hset : Settled ns σ) (hin : ∀ h ∈ net, h.src ∈ ns ∧ h.dst ∈ ns) : Net.Quiescent ν := by
  have nil_of : ∀ {l : List (Hop × BMsg)}, (∀ g, on g l = []) → l = [] := by
    intro l h
    cases l with
    | nil => rfl
    | cons x l =>
      have := h x.1
      rw [on, List.filter_cons_of_pos (by simp)] at this
      cases this
  constructor
  · refine nil_of (fun g => ?_)
    have h1 := hm.pending g
    by_cases hg : g ∈ net
    · obtain ⟨l, f1, f2, f3⟩ := project he g.src
      have hu0 : Up net e σ₀ := by cases as <;> first | exact hu | exact hu.1
      have h2 := heard_all (hsi.reach g.src) (hsi.published g.src) (hu0 g hg).1
        (f3 (fun b => Bus.Live b.w (e.sub g)) (throughout_imp (fun τ hτ => (hτ g hg).2.1) hu)) (fun h => hc _ (f2 h)) f1 (hset.1 _ (hin g hg).1).1
      have h3 : rest (σ.host g.src).published (received (e.sub g) (σ.host g.src).log) = [] := by
        refine rest_nil (fun i hi => ?_)
        rw [h2, due, List.mem_filter]
        refine ⟨by simp; omega, ?_⟩
        rw [List.getElem?_eq_getElem hi]
        simp [TopicRule, (throughout_last hu he g hg).2.2.1]
      rw [if_pos hg, h3] at h1
      exact List.perm_nil.mp h1
    · rw [if_neg hg] at h1
      exact List.perm_nil.mp h1
  · refine nil_of (fun g => ?_)
    have h1 := hm.transit g
    have hlost : σ.lost = [] := lost_exec he (inside_silent hsi) hu hsi.lost
    have hfly : flying σ g = [] := by
      by_cases hg : g ∈ net
      · have hcalls : σ.calls g.dst = [] := by
          have := hm.callsLen g.dst
          rw [(hset.1 g.dst (hin g hg).2).2] at this
          exact List.length_eq_zero_iff.mp this
        rw [flying, hcalls]; rfl
      · rw [flying, on, List.filter_eq_nil_iff]
        intro x hx
        simp only [List.mem_filterMap, id] at hx
        obtain ⟨y, hy, rfl⟩ := hx
        have := (inside_exec he (inside_silent (net := net) hsi)).2 _ _ hy
        simp only [decide_eq_true_eq]
        exact fun e => hg (e ▸ this)
    rw [hfly, hset.2, hlost] at h1
    exact List.perm_nil.mp h1

theorem wired_inside {ns : List Nat} {net : List Hop} (hw : Wired ns net) : ∀ h ∈ net, h.src ∈ ns ∧ h.dst ∈ ns :=
  fun h hh => ⟨hw.inside h hh, hw.inside h.back (hw.back h hh)⟩

/-! ## C126 -/

/-- Every execution of a network of hosts, from the silence on, is one of the plain network of `Verif.Model.Net`: with the same
messages from outside and, on every host, the same publications in the same order. -/
theorem C126_hosts_refine_network {net : List Hop} (hn : net.Nodup) (e : Ends) {σ₀ σ : St} {as : List Act} (hsi : Silent σ₀)
    (he : exec net e σ₀ as = some σ) {ns : List Nat} (hin : ∀ h ∈ net, h.src ∈ ns ∧ h.dst ∈ ns) : ∃ bs ν, Net.exec net .quiet bs = some ν ∧ ν.injected = σ.injected ∧
      (∀ v, (ν.published.filter (fun x => decide (x.1 = v))).map Prod.snd = (σ.host v).published) ∧
      (Throughout net e (Up net e) σ₀ as → (∀ v, .act v (.run .throwing) ∉ as) → Settled ns σ → Net.Quiescent ν) := by
  obtain ⟨bs, ν, h1, h2⟩ := mirror_exec hn (mirror_silent net e hsi) he
  exact ⟨bs, ν, h1, h2.injected, h2.published, fun hu hc hset => settled_quiescent hsi he h2 hu hc hset hin⟩

/-- In a tree of links, whatever the threads of all the hosts do: at every moment every subscriber on every host has been
called at most once for each message of its topic published anywhere, with the message itself on the host where it was
published and elsewhere with a copy of the same topic and document. Once nothing is left to do, a subscriber that was served
all the time has been called exactly once for each of them, provided the links were in operation and no callback threw. -/
theorem C126_tree_heard_once {ns : List Nat} {net : List Hop} (hne : ns ≠ []) (hw : Wired ns net) (hc : Connected ns net)
    (ha : Acyclic net) (e : Ends) {σ₀ σ : St} {as : List Act} (hsi : Silent σ₀) (he : exec net e σ₀ as = some σ)
    (hp : Proper net σ) (hin : ∀ x ∈ σ.injected, x.1 ∈ ns) :
    ∃ pre : Nat → Nat → Str, ∀ v ∈ ns, ∀ s,
      let wanted := (σ.injected.map (copyOn pre v)).filter (fun m => decide (TopicRule ((σ.host v).w.sub s).topic m.topic))
      (heard σ v s).Subperm wanted ∧
      (Throughout net e (Up net e) σ₀ as → (∀ v, .act v (.run .throwing) ∉ as) → Settled ns σ → s < (σ₀.host v).w.ns →
        Throughout net e (fun τ => Bus.Live (τ.host v).w s) σ₀ as → (heard σ v s).Perm wanted) := by
  obtain ⟨bs, ν, h1, h2, h3, h4⟩ := C126_hosts_refine_network hw.once e hsi he (wired_inside hw)
  have key : ∀ v ∈ ns, ∃ pre : Nat → Str,
      (σ.host v).published.Subperm (σ.injected.map (fun x => if x.1 = v then x.2 else ⟨pre x.1 ++ x.2.sender, x.2.topic, x.2.dg.wire⟩)) ∧
      (Net.Quiescent ν → (σ.host v).published.Perm
        (σ.injected.map (fun x => if x.1 = v then x.2 else ⟨pre x.1 ++ x.2.sender, x.2.topic, x.2.dg.wire⟩))) := by
    intro v hv
    obtain ⟨pre, hk1, hk2⟩ := Net.C56_tree_exactly_once hne hw hc ha h1 (fun x hx => hp x (h2 ▸ hx)) (fun x hx => hin x (h2 ▸ hx)) v hv
    rw [h3, h2] at hk1 hk2
    exact ⟨pre, hk1, hk2⟩
  refine ⟨fun o v => open Classical in if hv : v ∈ ns then (key v hv).choose o else [], ?_⟩
  intro v hv s
  have hk := (key v hv).choose_spec
  have hcopy : σ.injected.map (copyOn (fun o v => open Classical in if hv : v ∈ ns then (key v hv).choose o else []) v) =
      σ.injected.map (fun x => if x.1 = v then x.2 else ⟨(key v hv).choose x.1 ++ x.2.sender, x.2.topic, x.2.dg.wire⟩) := by
    refine List.map_congr_left (fun x _ => ?_)
    simp only [copyOn, hv, dif_pos]
  simp only [hcopy]
  have hr := (hsi.reach v)
  obtain ⟨l, f1, f2, f3⟩ := project he v
  have hr' : Bus.Reachable (σ.host v) := hr.exec f1
  constructor
  · exact (heard_sublist hr' s).subperm.trans (hk.1.filter _)
  · intro hu hth hset hs hl
    have h5 := heard_all hr (hsi.published v) hs (f3 (fun b => Bus.Live b.w s) hl) (fun h => hth _ (f2 h)) f1 (hset.1 v hv).1
    rw [heard, heard_pick hr'.inv, h5, pick_due]
    exact (hk.2 (h4 hu hth hset)).filter _

/-- The same for what is published on each host: at most, and in the end exactly, one copy of every message. -/
theorem C126_tree_published_once {ns : List Nat} {net : List Hop} (hne : ns ≠ []) (hw : Wired ns net) (hc : Connected ns net)
    (ha : Acyclic net) (e : Ends) {σ₀ σ : St} {as : List Act} (hsi : Silent σ₀) (he : exec net e σ₀ as = some σ)
    (hp : Proper net σ) (hin : ∀ x ∈ σ.injected, x.1 ∈ ns) (v : Nat) (hv : v ∈ ns) :
    (σ.host v).published.length ≤ σ.injected.length ∧
    (Throughout net e (Up net e) σ₀ as → (∀ v, .act v (.run .throwing) ∉ as) → Settled ns σ →
      (σ.host v).published.length = σ.injected.length) := by
  obtain ⟨bs, ν, h1, h2, h3, h4⟩ := C126_hosts_refine_network hw.once e hsi he (wired_inside hw)
  obtain ⟨pre, hk1, hk2⟩ := Net.C56_tree_exactly_once hne hw hc ha h1 (fun x hx => hp x (h2 ▸ hx)) (fun x hx => hin x (h2 ▸ hx)) v hv
  rw [h3, h2] at hk1 hk2
  refine ⟨by simpa using hk1.length_le, fun hu hth hset => by simpa using (hk2 (h4 hu hth hset)).length_eq⟩

/-- If the connections contain a cycle, then from the first message on the hosts never come to rest as long as the links are in
operation. -/
theorem C126_cycle_never_settles {ns : List Nat} {net : List Hop} (hw : Wired ns net) (hc : Connected ns net) (ha : ¬ Acyclic net)
    (e : Ends) {σ₀ σ : St} {as : List Act} (hsi : Silent σ₀) (he : exec net e σ₀ as = some σ) (hp : Proper net σ)
    {x : Nat × BMsg} (hx : x ∈ σ.injected) (hin : x.1 ∈ ns) (hu : Throughout net e (Up net e) σ₀ as)
    (hth : ∀ v, .act v (.run .throwing) ∉ as) : ¬ Settled ns σ := by
  intro hset
  obtain ⟨bs, ν, h1, h2, h3, h4⟩ := C126_hosts_refine_network hw.once e hsi he (wired_inside hw)
  exact Net.C56_cycle_never_quiet hw hc ha h1 (fun y hy => hp y (h2 ▸ hy)) (h2 ▸ hx) hin (h4 hu hth hset)

/-- Hosts connected through one link of a hub do not hear each other: on a host other than the hub a subscriber is only called
with what was published on this host itself, as long as nothing is published on the hub except by its link. -/
theorem C126_hub_does_not_relay {net : List Hop} (hn : net.Nodup) (hpl : Plain net) {c : Nat} {l : Str} (hh : Hub net c l)
    (hstar : ∀ h ∈ net, h.src = c ∨ h.dst = c) (e : Ends) {σ₀ σ : St} {as : List Act} (hsi : Silent σ₀)
    (he : exec net e σ₀ as = some σ) (hp : Proper net σ) (hout : ∀ x ∈ σ.injected, x.1 ≠ c) (v s : Nat) (hv : v ≠ c) :
    ∀ m ∈ heard σ v s, (v, m) ∈ σ.injected := by
  intro m hm
  obtain ⟨bs, ν, h1, h2, h3, -⟩ := C126_hosts_refine_network hn e hsi he (ns := net.map Hop.src ++ net.map Hop.dst) (fun h hh =>
    ⟨List.mem_append_left _ (List.mem_map_of_mem hh), List.mem_append_right _ (List.mem_map_of_mem hh)⟩)
  obtain ⟨k, f1, -, -⟩ := project he v
  have hmem := (heard_sublist ((hsi.reach v).exec f1) s).subset hm
  have hmem := (List.mem_filter.mp hmem).1
  rw [← h3 v] at hmem
  obtain ⟨y, hy, rfl⟩ := List.mem_map.mp hmem
  obtain ⟨hy, hyv⟩ := List.mem_filter.mp hy
  simp only [decide_eq_true_eq] at hyv
  rcases Net.C81_hub_does_not_relay hn hpl hh hstar h1 (fun x hx => hp x (h2 ▸ hx)) (fun x hx => hout x (h2 ▸ hx)) y hy with h | h
  · rw [h2] at h
    obtain ⟨y1, y2⟩ := y
    simp only at hyv; subst hyv
    exact h
  · exact absurd (hyv.symm.trans h) hv

end LP.Grid
