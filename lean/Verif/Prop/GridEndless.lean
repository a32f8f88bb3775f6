import Verif.Lemma.GridTravel
import Verif.Lemma.GridSchedule
import Verif.Prop.GridOrder
/-!
# C132: what is published on one host is heard on all, in time without bound
-/
namespace LP.Grid
open LP.Bus (BMsg Delivery TopicRule)
open LP.Net (Hop Wired Connected Acyclic Linked Route stop after)

variable {net : List Hop} {e : Ends}

/-- In a network in operation, for every journey that never turns back: all that a host has published by some moment has, from some
later moment on, made the journey and reached every subscriber that listens at its end and wants it, in the order it was
published, and nothing is missing in between. -/
theorem C132_travels {ns : List Nat} (hw : Wired ns net) (ρ : Endless net e) (H : ρ.Operating ns) {o : Nat} {r : List Hop}
    (hr : Route net o r) (hv : stop o r ∈ ns) {s : Nat} (hs : ρ.Listens (stop o r) s) (n : Nat) :
    ∃ k, ∀ k', k ≤ k' → ((own (ρ.st n) o).map (fun m => after m r)).filter (ρ.wants (stop o r) s) <+:
      (heard (ρ.st k') (stop o r) s).filter (madeJourney net o r) := by
  obtain ⟨k, hk, h1⟩ := H.travels hw hr n
  obtain ⟨j, hj, h2⟩ := H.hears (stop o r) hv s hs k
  refine ⟨j, fun k' hk' => ?_⟩
  refine (h1.filter _).trans ?_
  rw [filter_swap]
  exact (h2.trans (H.heard_grows _ s hk')).filter _

theorem linked_route {ns : List Nat} (hw : Wired ns net) {o v : Nat} (h : Linked net o v) : ∃ r, Route net o r ∧ stop o r = v := by
  induction h with
  | here => exact ⟨[], trivial, rfl⟩
  | hop _ hh ih =>
    obtain ⟨r, h1, h2⟩ := ih
    exact ⟨_, route_onward hh h1 h2 hw⟩

/-- Whatever the connections are, as long as they connect the hosts: what is published on one of them reaches every subscriber on
every one that listens and wants it, with its topic and document, as often as it was published, and in order; the path of the sender
is extended in front by something that depends on the two hosts only. -/
theorem C132_heard_everywhere {ns : List Nat} (hw : Wired ns net) (hc : Connected ns net) (ρ : Endless net e) (H : ρ.Operating ns) :
    ∃ pre : Nat → Nat → Str, ∀ o ∈ ns, ∀ v ∈ ns, ∀ s, ρ.Listens v s → ∀ n, ∃ k, ∀ k', k ≤ k' →
      List.Sublist (((own (ρ.st n) o).map (fun m => copyOn pre v (o, m))).filter (ρ.wants v s)) (heard (ρ.st k') v s) := by
  have hroute : ∀ o ∈ ns, ∀ v ∈ ns, ∃ r, Route net o r ∧ stop o r = v ∧ (r = [] ↔ o = v) := by
    intro o ho v hv
    by_cases eq : o = v
    · exact ⟨[], trivial, eq, by simp [eq]⟩
    · obtain ⟨r, h1, h2⟩ := linked_route hw (hc o ho v hv)
      refine ⟨r, h1, h2, fun e => ?_, fun e => absurd e eq⟩
      rw [e] at h2; exact absurd h2 eq
  refine ⟨fun o v => open Classical in if h : o ∈ ns ∧ v ∈ ns then trail (hroute o h.1 v h.2).choose else [], fun o ho v hv s hs n => ?_⟩
  obtain ⟨h1, h2, h3⟩ := (hroute o ho v hv).choose_spec
  have hcopy : ∀ m, copyOn (fun o v => open Classical in if h : o ∈ ns ∧ v ∈ ns then trail (hroute o h.1 v h.2).choose else []) v (o, m) =
      after m (hroute o ho v hv).choose := by
    intro m
    rw [Net.after_eq]
    simp only [copyOn, ho, hv, and_self, dite_true, h3]
    have : ∀ r : List Hop, Net.stamps r = trail r := by
      intro r
      induction r with
      | nil => rfl
      | cons h r ih => simp [Net.stamps, trail, ih]
    rw [this]
  obtain ⟨k, hk⟩ := C132_travels hw ρ H h1 (by rw [h2]; exact hv) (s := s) (by rw [h2]; exact hs) n
  refine ⟨k, fun k' hk' => ?_⟩
  have := hk k' hk'
  rw [h2] at this
  simp only [hcopy]
  exact this.sublist.trans List.filter_sublist

theorem eventually_all {α : Type} {P : α → Nat → Prop} : ∀ {l : List α}, (∀ v ∈ l, ∃ k, ∀ k', k ≤ k' → P v k') →
    ∃ k, ∀ k', k ≤ k' → ∀ v ∈ l, P v k'
  | [], _ => ⟨0, fun _ _ v hv => by simp at hv⟩
  | a :: l, h => by
    obtain ⟨k, hk⟩ := eventually_all (l := l) (fun v hv => h v (by simp [hv]))
    obtain ⟨j, hj⟩ := h a (by simp)
    refine ⟨max k j, fun k' hk' v hv => ?_⟩
    rcases List.mem_cons.1 hv with rfl | hv
    · exact hj k' (by omega)
    · exact hk k' (by omega) v hv

theorem eventually_constant {f : Nat → Nat} (hf : ∀ n m, n ≤ m → f n ≤ f m) {B : Nat} (hB : ∀ n, f n ≤ B) : ∃ k, ∀ k', k ≤ k' → f k' = f k := by
  suffices H : ∀ d k, B - f k ≤ d → ∃ k, ∀ k', k ≤ k' → f k' = f k from H B 0 (by omega)
  intro d
  induction d with
  | zero =>
    intro k hk
    refine ⟨k, fun k' hk' => ?_⟩
    have := hf k k' hk'; have := hB k'; omega
  | succ d ih =>
    intro k hk
    by_cases h : ∀ k', k ≤ k' → f k' = f k
    · exact ⟨k, h⟩
    · simp only [Classical.not_forall] at h
      obtain ⟨k', h1, h2⟩ := h
      have := hf k k' h1
      exact ih k' (by omega)

theorem Endless.Operating.linked_out {ns : List Nat} (hw : Wired ns net) (hc : Connected ns net) {u v : Nat} (hu : u ∈ ns) (hv : v ∈ ns)
    (huv : u ≠ v) : ∃ h ∈ net, h.src = v := by
  cases hc u hu v hv with
  | here => exact absurd rfl huv
  | hop _ hh => exact ⟨_, hw.back _ hh, rfl⟩

/-- In a tree of at least two hosts, once clients publish no more, the hosts come to rest, for good. -/
theorem C132_comes_to_rest {ns : List Nat} (hw : Wired ns net) (hc : Connected ns net) (ha : Acyclic net) {u v : Nat} (hu : u ∈ ns)
    (hv : v ∈ ns) (huv : u ≠ v) (ρ : Endless net e) (H : ρ.Operating ns) (n : Nat) (hin : ∀ x ∈ (ρ.st n).injected, x.1 ∈ ns)
    (hq : ∀ k, n ≤ k → (ρ.st k).injected = (ρ.st n).injected) : ∃ k, ∀ k', k ≤ k' → Settled ns (ρ.st k') := by
  have hne : ns ≠ [] := List.ne_nil_of_mem hu
  have hout : ∀ w ∈ ns, ∃ h ∈ net, h.src = w := by
    intro w hwn
    by_cases eq : u = w
    · subst eq; exact Endless.Operating.linked_out hw hc hv hu (Ne.symm huv)
    · exact Endless.Operating.linked_out hw hc hu hwn eq
  -- from some moment on nothing is published
  have hstill : ∃ K, ∀ k, K ≤ k → ∀ w ∈ ns, n ≤ k ∧ ∃ L, ∀ j, k ≤ j → ((ρ.st j).host w).published.length = L := by
    refine eventually_all (P := fun w k => n ≤ k ∧ ∃ L, ∀ j, k ≤ j → ((ρ.st j).host w).published.length = L) (fun w hwn => ?_)
    obtain ⟨K, hK⟩ := eventually_constant (f := fun k => ((ρ.st (n + k)).host w).published.length) (B := (ρ.st n).injected.length)
      (fun a b hab => (H.grows w (by omega)).1.length_le) (fun k => by
        have := (C126_tree_published_once hne hw hc ha e H.silent (ρ.exec0 (n + k)) (H.proper _)
          (by rw [hq _ (by omega)]; exact hin) w hwn).1
        rwa [hq _ (by omega)] at this)
    refine ⟨n + K, fun k hk => ⟨by omega, ((ρ.st (n + K)).host w).published.length, fun j hj => ?_⟩⟩
    have := hK (j - n) (by omega)
    rwa [show n + (j - n) = j by omega] at this
  obtain ⟨K, hK⟩ := hstill
  have hnopush : ∀ k, K ≤ k → ∀ w ∈ ns, ∀ i, ρ.act k ≠ .act w (.push i) := by
    intro k hk w hwn i hact
    obtain ⟨_, L, hL⟩ := hK k hk w hwn
    have hs := ρ.ok k
    rw [hact] at hs
    simp only [step] at hs
    cases hb : Bus.step ((ρ.st k).host w) (.push i) with
    | none => simp [hb] at hs
    | some b =>
      simp only [hb, Option.some.injEq] at hs
      have h1 : (ρ.st (k + 1)).host w = b := by rw [← hs]; simp [put_same]
      simp only [Bus.step] at hb
      split at hb <;> cases hb
      have h2 := hL k (Nat.le_refl _)
      have h3 := hL (k + 1) (by omega)
      rw [h1] at h3
      simp only [List.length_append, List.length_singleton] at h3
      omega
  have hfl : ∀ k, K ≤ k → ∀ w ∈ ns, ((ρ.st k).host w).inflight = [] := by
    intro k hk w hwn
    cases hf : ((ρ.st k).host w).inflight with
    | nil => rfl
    | cons m t =>
      obtain ⟨j, i, hj, _, h2⟩ := H.prompt.1 w hwn k m (by rw [hf]; exact List.mem_cons_self)
      exact absurd h2 (hnopush j (by omega) w hwn i)
  have hway : ∀ k, K ≤ k → (ρ.st k).way = [] := by
    intro k hk
    cases hf : (ρ.st k).way with
    | nil => rfl
    | cons x t =>
      obtain ⟨g, m⟩ := x
      have hmem : (g, m) ∈ (ρ.st k).way := by rw [hf]; exact List.mem_cons_self
      have hg := (H.kept hw k).inside.1 _ hmem
      obtain ⟨k', hk', hlt⟩ := H.comes hw hg hmem
      obtain ⟨_, L, hL⟩ := hK k hk g.dst (wired_inside hw g hg).2
      have h1 := (H.grows g.dst hk').1
      have h2 : ((ρ.st k').host g.dst).published = ((ρ.st k).host g.dst).published :=
        (h1.eq_of_length (by rw [hL k (Nat.le_refl _), hL k' hk'])).symm
      rw [arrivals_same h2] at hlt
      exact absurd hlt (Nat.lt_irrefl _)
  have hidle : ∃ k, ∀ k', k ≤ k' → ∀ w ∈ ns, Bus.Idle ((ρ.st k').host w) := by
    refine eventually_all (P := fun w k => Bus.Idle ((ρ.st k).host w)) (fun w hwn => ?_)
    obtain ⟨h, hh, rfl⟩ := hout w hwn
    obtain ⟨β, b1, b2, b3, b4, b5⟩ := ρ.bus (fun n => (H.up n h hh).1)
    obtain ⟨T, hT⟩ := H.shape
    have hr0 : Bus.Reachable (β.st 0) := by rw [b1]; exact H.silent.reach _
    have hno : β.NoThrow := fun n e => H.calm n _ (b3 n e)
    have hfr : β.Fair := fun n => by
      obtain ⟨m, hm, c, hc⟩ := H.fair h.src hwn n
      exact ⟨m, hm, c, b2 m c hc⟩
    have hnb : β.NoNewBuses T := fun n hn b name e => hT n hn _ b name (b4 n b name e)
    have hrun : ∀ m, ((β.st m).w.bus 0).running = true := fun m => by rw [b1]; exact H.running m _ hwn
    have hon := Bus.Endless.on hr0 hno (Nat.zero_le K) (fun m _ => hrun m) (by rw [b1]; exact H.started _ hwn)
    obtain ⟨k, _, hk⟩ := Bus.C128_comes_to_rest β K T hr0 hfr hno hnb (fun m _ => hrun m) hon
      (fun k hk i hp => hnopush k hk h.src hwn i (b5 k i hp))
    exact ⟨k, fun k' hk' => by rw [← b1]; exact hk k' hk'⟩
  obtain ⟨k, hk⟩ := hidle
  refine ⟨max k K, fun k' hk' => ⟨fun w hwn => ⟨hk k' (by omega) w hwn, hfl k' (by omega) w hwn⟩, hway k' (by omega)⟩⟩

/-- The copies of a message along a route. -/
def trace (o : Nat) (m : BMsg) : List Hop → List (Nat × BMsg)
  | [] => [(o, m)]
  | h :: r => (h.dst, after m (h :: r)) :: trace o m r

theorem trace_shorter (o : Nat) (m : BMsg) : ∀ (r : List Hop), ∀ x ∈ trace o m r, x.2.sender.length ≤ (after m r).sender.length
  | [], x, h => by
    simp only [trace, List.mem_singleton] at h
    subst h; exact Nat.le_refl _
  | h :: r, x, hx => by
    rcases List.mem_cons.1 hx with rfl | hx
    · exact Nat.le_refl _
    · have := trace_shorter o m r x hx
      simp only [after, List.length_append]
      omega

theorem trace_nodup (o : Nat) (m : BMsg) : ∀ (r : List Hop), (trace o m r).Nodup ∧ (trace o m r).length = r.length + 1
  | [] => by simp [trace]
  | h :: r => by
    obtain ⟨h1, h2⟩ := trace_nodup o m r
    refine ⟨List.nodup_cons.2 ⟨fun hx => ?_, h1⟩, by simp [trace, h2]⟩
    have := trace_shorter o m r _ hx
    simp only [after, List.length_append, List.length_singleton] at this
    omega

theorem mem_trace {o : Nat} {m : BMsg} : ∀ {r : List Hop}, Route net o r → ∀ x ∈ trace o m r, ∃ t, Route net o t ∧ x = (stop o t, after m t)
  | [], _, x, hx => by
    simp only [trace, List.mem_singleton] at hx
    exact ⟨[], trivial, hx⟩
  | h :: r, hr, x, hx => by
    rcases List.mem_cons.1 hx with rfl | hx
    · exact ⟨h :: r, hr, rfl⟩
    · exact mem_trace hr.2.2.2 x hx

/-- If the connections contain a cycle, a single message is enough: the number of publications exceeds every bound, even if no client
ever publishes anything else. -/
theorem C132_floods {ns : List Nat} (hw : Wired ns net) (hc : Connected ns net) (ha : ¬ Acyclic net) (ρ : Endless net e)
    (H : ρ.Operating ns) {n : Nat} {x : Nat × BMsg} (hx : x ∈ (ρ.st n).injected) (hin : x.1 ∈ ns) (N : Nat) :
    ∃ k, ∀ k', k ≤ k' → N ≤ total ns (ρ.st k') := by
  have hne : ns ≠ [] := List.ne_nil_of_mem hin
  rcases Net.grown_or_long _ ns net (Nat.le_refl _) hne hw hc with hg | hlong
  · exact absurd (Net.acyclic_of_grown hg) ha
  obtain ⟨o, m⟩ := x
  obtain ⟨r, hr, hlen⟩ := hlong o hin N
  have hall : ∃ k, ∀ k', k ≤ k' → ∀ y ∈ trace o m r, y.1 ∈ ns ∧ y.2 ∈ ((ρ.st k').host y.1).published := by
    refine eventually_all (P := fun (y : Nat × BMsg) k' => y.1 ∈ ns ∧ y.2 ∈ ((ρ.st k').host y.1).published) (fun y hy => ?_)
    obtain ⟨t, ht, rfl⟩ := mem_trace hr y hy
    obtain ⟨k, hk, h1⟩ := H.travels hw ht n
    refine ⟨k, fun k' hk' => ⟨Net.stop_mem (fun h hh => (wired_inside hw h hh).2) hin ht, ?_⟩⟩
    have hm : m ∈ own (ρ.st n) o := by
      simp only [own, List.mem_map, List.mem_filter, decide_eq_true_eq]
      exact ⟨(o, m), ⟨hx, rfl⟩, rfl⟩
    have := h1.subset (List.mem_map.2 ⟨m, hm, rfl⟩)
    exact (H.grows _ hk').1.subset (List.mem_filter.1 this).1
  obtain ⟨k, hk⟩ := hall
  refine ⟨k, fun k' hk' => ?_⟩
  have hsub : trace o m r ⊆ ns.flatMap (fun v => ((ρ.st k').host v).published.map (fun m => (v, m))) := by
    intro y hy
    obtain ⟨h1, h2⟩ := hk k' hk' y hy
    simp only [List.mem_flatMap, List.mem_map]
    exact ⟨y.1, h1, y.2, h2, rfl⟩
  obtain ⟨h1, h2⟩ := trace_nodup o m r
  have := (List.subperm_of_subset h1 hsub).length_le
  rw [List.length_flatMap, h2, hlen] at this
  simp only [List.length_map] at this
  unfold total
  omega

/-- Operation without end is always possible: whatever a network of working hosts in operation has been doing since the silence, if
nobody is inside `Publish` it can go on for ever without its clients in such a way that no thread and no message is forgotten. -/
theorem C132_goes_on {ns : List Nat} (hne : ns ≠ []) (hw : Wired ns net) {σ₀ σ : St} {as : List Act} (hsi : Silent σ₀)
    (he : exec net e σ₀ as = some σ) (hord : InOrder net e σ₀ as) (hup : Throughout net e (Up net e) σ₀ as) (hpr : Proper net σ)
    (hthr : ∀ v, .act v (.run .throwing) ∉ as) (hst : ∀ v ∈ ns, (σ₀.host v).phase ≠ .off)
    (hrun : Throughout net e (fun τ => ∀ v ∈ ns, ((τ.host v).w.bus 0).running = true) σ₀ as)
    (hwk : Working ns net e σ) (hidle : ∀ v, (σ.host v).inflight = []) :
    ∃ ρ : Endless net e, ρ.Operating ns ∧ ρ.st 0 = σ₀ ∧ ρ.st as.length = σ ∧
      (∀ n, as.length ≤ n → Unaided (ρ.act n) ∧ (ρ.st n).injected = σ.injected) ∧
      ∀ v s, Throughout net e (fun τ => Bus.Live (τ.host v).w s) σ₀ as → s < (σ₀.host v).w.ns → ρ.Listens v s := by
  obtain ⟨ρ, h1, h2, h3, -, h4⟩ := goes_on hne hw hsi he hord hup hpr hthr hrun hst hwk hidle
  exact ⟨ρ, h1, h2, h3, h4⟩

namespace Ex

/-- Check that the root buses of three hosts run. -/
def rooted (σ : St) : Bool := [0, 1, 2].all (fun v => ((σ.host v).w.bus 0).running)

theorem rooted_sound {σ : St} (h : rooted σ = true) : ∀ v ∈ [0, 1, 2], ((σ.host v).w.bus 0).running = true :=
  fun v hv => List.all_eq_true.1 h v hv

/-- Check that the bus threads of three hosts are inside `Run`. -/
def inside (σ : St) : Bool := [0, 1, 2].all (fun v => match (σ.host v).phase with | .off => false | _ => true)

theorem inside_sound {σ : St} (h : inside σ = true) : ∀ v ∈ [0, 1, 2], (σ.host v).phase ≠ .off := by
  intro v hv e
  have := List.all_eq_true.1 h v hv
  simp only [e] at this
  cases this

/-- Check that nobody is inside `Publish` on three hosts and that the buses of links exist. -/
def free (σ : St) : Bool := [0, 1, 2].all (fun v => (σ.host v).inflight.isEmpty && decide (2 < (σ.host v).w.nb))

/-- The events are those of three hosts. -/
def local3 (as : List Act) : Bool := as.all (fun a => match a with | .act v _ => [0, 1, 2].contains v | .receive _ => true)

theorem elsewhere {net : List Hop} (hd : ∀ h ∈ net, h.dst ∈ [0, 1, 2]) : ∀ {as : List Act} {σ τ : St}, local3 as = true → Inside net σ →
    exec net ends σ as = some τ → ∀ v, v ∉ [0, 1, 2] → (τ.host v).inflight = (σ.host v).inflight
  | [], _, _, _, _, h, _, _ => by cases h; rfl
  | a :: as, σ, τ, hl, hi, h, v, hv => by
    obtain ⟨ρ, h1, h2⟩ := exec_cons h
    simp only [local3, List.all_cons, Bool.and_eq_true] at hl
    have hi' : Inside net ρ := inside_exec (e := ends) (as := [a]) (by simp [exec, h1]) hi
    rw [elsewhere hd hl.2 hi' h2 v hv]
    cases a with
    | act u a =>
      have hu : u ∈ [0, 1, 2] := by simpa using hl.1
      simp only [step] at h1
      split at h1 <;> cases h1
      exact congrArg Bus.St.inflight (put_other _ _ (fun e => hv (e ▸ hu)))
    | receive k =>
      simp only [step] at h1
      split at h1
      · cases h1
      · rename_i g m hk
        split at h1 <;> cases h1
        exact congrArg Bus.St.inflight (put_other _ _ (fun e => hv (e ▸ hd g (hi.1 (g, m) (List.mem_of_getElem? hk)))))

/-- Any execution of the examples can be continued for ever. -/
theorem continued {net : List Hop} (hw : Wired [0, 1, 2] net) (as : List Act) {k : St → Bool} (hloc : local3 as = true)
    (hthr : as.all (fun a => match a with | .act _ (.run .throwing) => false | _ => true) = true)
    (h : (match begin with
      | none => false
      | some b => fresh b && (((b.w.sub 2).topic == bs "t") && (inOrder net (hosts b) as && (inside (hosts b) && watch net (fun σ => served net σ && rooted σ)
        (fun σ => free σ && (inside σ && (honest net σ && k σ))) (hosts b) as)))) = true) :
    ∃ ρ : Endless net ends, ρ.Operating [0, 1, 2] ∧ k (ρ.st as.length) = true ∧ (∀ x ∈ (ρ.st as.length).injected, x.1 ∈ [0, 1, 2]) ∧
      (∀ n, as.length ≤ n → (ρ.st n).injected = (ρ.st as.length).injected) ∧ ρ.Listens 2 2 ∧ ∀ m, ρ.wants 2 2 m = decide (Bus.TopicRule (bs "t") m.topic) := by
  obtain ⟨b, hb, h⟩ := run_of (f := fun b => fresh b && (((b.w.sub 2).topic == bs "t") && (inOrder net (hosts b) as && (inside (hosts b) &&
    watch net (fun σ => served net σ && rooted σ) (fun σ => free σ && (inside σ && (honest net σ && k σ))) (hosts b) as)))) h
  simp only [Bool.and_eq_true, beq_iff_eq] at h
  obtain ⟨g1, g2, g3, g4, g5⟩ := h
  obtain ⟨h1, h2⟩ := fresh_sound hb g1
  obtain ⟨h3, σ, h4, h5⟩ := watch_sound (P' := fun τ => (Up net ends τ ∧ Bus.Live (τ.host 2).w 2) ∧ ∀ v ∈ [0, 1, 2], ((τ.host v).w.bus 0).running = true)
    (fun τ h => by simp only [Bool.and_eq_true] at h; exact ⟨served_sound h.1, rooted_sound h.2⟩) g5
  simp only [Bool.and_eq_true] at h5
  obtain ⟨h5, h6, h7, h8⟩ := h5
  have hfree : ∀ v ∈ [0, 1, 2], (σ.host v).inflight = [] ∧ 2 < (σ.host v).w.nb := by
    intro v hv
    have := List.all_eq_true.1 h5 v hv
    simpa using this
  have hidle : ∀ v, (σ.host v).inflight = [] := by
    intro v
    by_cases hv : v ∈ [0, 1, 2]
    · exact (hfree v hv).1
    · rw [elsewhere (fun g hg => (wired_inside hw g hg).2) hloc (inside_silent (net := net) h1) h4 v hv]; exact h1.inflight v
  obtain ⟨ρ, r1, r2, r3, r4, r5⟩ := C132_goes_on (by simp) hw h1 h4 (inOrder_sound g3) (throughout_imp (fun _ h => h.1.1) h3) (honest_sound h7).1
    (never_throws hthr) (inside_sound g4) (throughout_imp (fun _ h => h.2) h3)
    ⟨fun v hv => ⟨(throughout_last h3 h4).2 v hv, inside_sound h6 v hv⟩, fun g hg => by
      have := (hfree g.dst (wired_inside hw g hg).2).2
      simp only [ends]
      split <;> omega⟩ hidle
  refine ⟨ρ, r1, by rw [r3]; exact h8, by rw [r3]; exact (honest_sound h7).2, fun n hn => by rw [(r4 n hn).2, r3],
    r5 2 2 (throughout_imp (fun _ h => h.1.2) h3) h2, fun m => ?_⟩
  have : ((ρ.st 0).host 2).w.sub 2 = b.w.sub 2 := by rw [r2]; rfl
  simp only [Endless.wants, this, g2]

end Ex

-- The hypotheses of `C132_travels`, `C132_heard_everywhere` and `C132_comes_to_rest`: three hosts in a row, of which the first two publish
-- three messages, two of them before the network is left to itself with nothing received yet by host 2.
example : ∃ ρ : Endless Net.Ex.row Ex.ends, ρ.Operating [0, 1, 2] ∧ Wired [0, 1, 2] Net.Ex.row ∧ Connected [0, 1, 2] Net.Ex.row ∧ Acyclic Net.Ex.row ∧
    Route Net.Ex.row 0 Ex.far ∧ stop 0 Ex.far = 2 ∧ ρ.Listens 2 2 ∧ ∃ n, (∀ x ∈ (ρ.st n).injected, x.1 ∈ [0, 1, 2]) ∧
    (∀ k, n ≤ k → (ρ.st k).injected = (ρ.st n).injected) ∧
    (((own (ρ.st n) 0).map (fun m => after m Ex.far)).filter (ρ.wants 2 2)).length = 2 ∧ (heard (ρ.st n) 2 2).length = 0 := by
  obtain ⟨ρ, h1, h2, h3, h4, h5, h6⟩ := Ex.continued Net.Ex.row_wired (Ex.tell 0 "a" ++ Ex.take 1 0 ++ Ex.tell 0 "b" ++ Ex.tell 1 "c")
    (k := fun σ => ((own σ 0).map (fun m => (m.sender, m.topic)) == [(bs "a", bs "t"), (bs "b", bs "t")]) && (heard σ 2 2).isEmpty)
    (by decide +kernel) (by decide +kernel) (by decide +kernel)
  simp only [Bool.and_eq_true, beq_iff_eq, List.isEmpty_iff] at h2
  refine ⟨ρ, h1, Net.Ex.row_wired, Net.Ex.row_connected, Net.Ex.row_acyclic, Ex.far_route, rfl, h5, _, h3, h4, ?_, by rw [h2.2]; rfl⟩
  have hall : ∀ m ∈ own (ρ.st (Ex.tell 0 "a" ++ Ex.take 1 0 ++ Ex.tell 0 "b" ++ Ex.tell 1 "c").length) 0, m.topic = bs "t" := by
    intro m hm
    have := List.mem_map_of_mem (f := fun m => (m.sender, m.topic)) hm
    rw [h2.1] at this
    simp only [List.mem_cons, Prod.mk.injEq, List.not_mem_nil, or_false] at this
    rcases this with h | h
    · exact h.2
    · exact h.2
  rw [List.filter_eq_self.2, List.length_map]
  · simpa using congrArg List.length h2.1
  · intro y hy
    obtain ⟨m, hm, rfl⟩ := List.mem_map.1 hy
    rw [h6, show (after m Ex.far).topic = m.topic from rfl, hall m hm]
    decide

-- and of `C132_floods`: three hosts in a ring, one message
example : ∃ ρ : Endless Net.Ex.ring Ex.ends, ρ.Operating [0, 1, 2] ∧ Wired [0, 1, 2] Net.Ex.ring ∧ Connected [0, 1, 2] Net.Ex.ring ∧
    ¬ Acyclic Net.Ex.ring ∧ ∃ n, (∃ x ∈ (ρ.st n).injected, x.1 ∈ [0, 1, 2]) ∧ ∀ k, n ≤ k → (ρ.st k).injected.length = 1 := by
  obtain ⟨ρ, h1, h2, h3, h4, -, -⟩ := Ex.continued Net.Ex.ring_wired [.act 0 (.publish 3 (Ex.say "a")), .act 0 (.push 0)]
    (k := fun σ => decide (σ.injected.length = 1)) (by decide +kernel) (by decide +kernel) (by decide +kernel)
  simp only [decide_eq_true_eq] at h2
  obtain ⟨x, hx⟩ := List.length_eq_one_iff.1 h2
  exact ⟨ρ, h1, Net.Ex.ring_wired, Net.Ex.ring_connected, Net.Ex.ring_cyclic, _, ⟨x, by rw [hx]; simp, h3 x (by rw [hx]; simp)⟩,
    fun k hk => by rw [h4 k hk]; exact h2⟩

end LP.Grid
