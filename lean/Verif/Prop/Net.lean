import Verif.Lemma.NetTree
/-!
# Theorems about networks of links
-/
namespace LP.Net
open LP.Bus

/-! ## Lemmas about trees -/

/-- The receiving links of a journey, latest first. -/
def stamps : List Hop → Str
  | [] => []
  | h :: r => h.inn ++ [slash] ++ stamps r

theorem after_eq (m : BMsg) : ∀ r : List Hop, after m r = if r = [] then m else ⟨stamps r ++ m.sender, m.topic, m.dg.wire⟩
  | [] => rfl
  | h :: r => by
    have ih := after_eq m r
    simp only [after, ih, stamps]
    cases r <;> simp [stamps]

section

open Classical in
/-- The way from one node to another. -/
noncomputable def way (net : List Hop) (o v : Nat) : List Hop :=
  if h : ∃ r, Route net o r ∧ stop o r = v then h.choose else []

/-- The copies of the injected messages that belong on a node. -/
noncomputable def copies (net : List Hop) (inj : List (Nat × BMsg)) (v : Nat) : List Tag :=
  inj.zipIdx.map (fun x => ⟨x.2, x.1.1, x.1.2, way net x.1.1 v⟩)

variable {ns : List Nat} {net : List Hop}

theorem way_spec (hg : Grown ns net) {o v : Nat} (ho : o ∈ ns) (hv : v ∈ ns) :
    (Route net o (way net o v) ∧ stop o (way net o v) = v) ∧ ∀ s, Route net o s → stop o s = v → s = way net o v := by
  obtain ⟨r, hr, hu⟩ := hg.unique o ho v hv
  have hex : ∃ r, Route net o r ∧ stop o r = v := ⟨r, hr⟩
  have hw : way net o v = hex.choose := dif_pos hex
  have hs := hex.choose_spec
  rw [hw]
  exact ⟨hs, fun s h1 h2 => by rw [hu s h1 h2, hu _ hs.1 hs.2]⟩

theorem way_nil (hg : Grown ns net) {o v : Nat} (ho : o ∈ ns) (hv : v ∈ ns) : way net o v = [] ↔ o = v := by
  obtain ⟨⟨h1, h2⟩, h3⟩ := way_spec hg ho hv
  constructor
  · intro h; rw [h] at h2; exact h2
  · rintro rfl; exact (h3 [] trivial rfl).symm

theorem mem_copies (hg : Grown ns net) {σ : St} (hin : ∀ x ∈ σ.injected, x.1 ∈ ns) {v : Nat} (hv : v ∈ ns) (t : Tag) :
    t ∈ copies net σ.injected v ↔ t.ok net σ ∧ t.node = v := by
  simp only [copies, List.mem_map, Prod.exists]
  constructor
  · rintro ⟨o, m, k, hm, rfl⟩
    rw [List.mem_zipIdx_iff_getElem?] at hm
    have ho : o ∈ ns := hin _ (List.mem_of_getElem? hm)
    obtain ⟨h1, _⟩ := way_spec hg ho hv
    exact ⟨⟨hm, h1.1⟩, h1.2⟩
  · rintro ⟨⟨h1, h2⟩, h3⟩
    obtain ⟨k, o, m, r⟩ := t
    have ho : o ∈ ns := hin _ (List.mem_of_getElem? h1)
    refine ⟨o, m, k, by rw [List.mem_zipIdx_iff_getElem?]; exact h1, ?_⟩
    rw [(way_spec hg ho hv).2 r h2 h3]

theorem copies_nodup (inj : List (Nat × BMsg)) (v : Nat) : (copies net inj v).Nodup := by
  have h : ((copies net inj v).map Tag.k).Nodup := by
    have : (copies net inj v).map Tag.k = inj.zipIdx.map Prod.snd := by simp [copies, Function.comp_def]
    rw [this, List.zipIdx_map_snd]
    exact List.nodup_range'
  exact h.of_map

theorem copies_val (hg : Grown ns net) {inj : List (Nat × BMsg)} (hin : ∀ x ∈ inj, x.1 ∈ ns) {v : Nat} (hv : v ∈ ns) :
    (copies net inj v).map Tag.val =
      inj.map (fun x => if x.1 = v then x.2 else ⟨stamps (way net x.1 v) ++ x.2.sender, x.2.topic, x.2.dg.wire⟩) := by
  have h1 : (copies net inj v).map Tag.val = (inj.zipIdx.map Prod.fst).map (fun x => after x.2 (way net x.1 v)) := by
    unfold copies; rw [List.map_map, List.map_map]; rfl
  rw [h1, List.zipIdx_map_fst]
  refine List.map_congr_left (fun x hx => ?_)
  rw [after_eq]
  have := way_nil hg (hin x hx) hv
  by_cases h : x.1 = v
  · rw [if_pos (this.mpr h), if_pos h]
  · rw [if_neg (fun e => h (this.mp e)), if_neg h]

theorem Inv.onNode (hg : Grown ns net) {σ : St} {P : List Tag} {Q T : List (Hop × Tag)} (hi : Inv net σ P Q T)
    (hin : ∀ x ∈ σ.injected, x.1 ∈ ns) {v : Nat} (hv : v ∈ ns) :
    (P.filter (fun t => t.node = v)).Subperm (copies net σ.injected v) ∧
    (Quiescent σ → (P.filter (fun t => t.node = v)).Perm (copies net σ.injected v)) := by
  have hnd : (P.filter (fun t => t.node = v)).Nodup := hi.pnodup.filter _
  constructor
  · refine List.subperm_of_subset hnd (fun t ht => ?_)
    simp only [List.mem_filter, decide_eq_true_eq] at ht
    exact (mem_copies hg hin hv t).mpr ⟨hi.pok t ht.1, ht.2⟩
  · intro hq
    refine (List.perm_ext_iff_of_nodup hnd (copies_nodup _ _)).mpr (fun t => ?_)
    rw [mem_copies hg hin hv]
    simp only [List.mem_filter, decide_eq_true_eq]
    exact ⟨fun h => ⟨hi.pok t h.1, h.2⟩, fun h => ⟨hi.complete hq t h.1, h.2⟩⟩

theorem all_copies_nodup (hg : Grown ns net) {σ : St} (hin : ∀ x ∈ σ.injected, x.1 ∈ ns) :
    (ns.flatMap (copies net σ.injected)).Nodup := by
  rw [List.nodup_flatMap]
  refine ⟨fun v _ => copies_nodup _ _, ?_⟩
  refine List.Pairwise.imp_of_mem ?_ hg.facts.1
  intro a b ha hb hab
  simp only [Function.onFun, List.disjoint_left]
  intro t h1 h2
  exact hab (((mem_copies hg hin ha t).mp h1).2.symm.trans ((mem_copies hg hin hb t).mp h2).2)

theorem Inv.everywhere (hg : Grown ns net) {σ : St} {P : List Tag} {Q T : List (Hop × Tag)} (hi : Inv net σ P Q T)
    (hin : ∀ x ∈ σ.injected, x.1 ∈ ns) :
    P.Subperm (ns.flatMap (copies net σ.injected)) ∧ (Quiescent σ → P.Perm (ns.flatMap (copies net σ.injected))) := by
  have hdst : ∀ h ∈ net, h.dst ∈ ns := fun h hh => (hg.facts.2.2.1 h hh).2
  have hmem : ∀ t : Tag, t ∈ ns.flatMap (copies net σ.injected) ↔ t.ok net σ := by
    intro t
    rw [List.mem_flatMap]
    constructor
    · rintro ⟨v, hv, ht⟩; exact ((mem_copies hg hin hv t).mp ht).1
    · intro ht
      have ho : t.o ∈ ns := hin _ (List.mem_of_getElem? ht.1)
      have hv : t.node ∈ ns := stop_mem hdst ho ht.2
      exact ⟨t.node, hv, (mem_copies hg hin hv t).mpr ⟨ht, rfl⟩⟩
  refine ⟨List.subperm_of_subset hi.pnodup (fun t ht => (hmem t).mpr (hi.pok t ht)), fun hq => ?_⟩
  exact (List.perm_ext_iff_of_nodup hi.pnodup (all_copies_nodup hg hin)).mpr
    (fun t => ⟨fun h => (hmem t).mpr (hi.pok t h), fun h => hi.complete hq t ((hmem t).mp h)⟩)

theorem copies_weight (hg : Grown ns net) {σ : St} (hin : ∀ x ∈ σ.injected, x.1 ∈ ns) (f : Nat → Nat) :
    ((ns.flatMap (copies net σ.injected)).map (fun t => f t.node)).sum = (ns.map f).sum * σ.injected.length := by
  have hone : ∀ v ∈ ns, ((copies net σ.injected v).map (fun t => f t.node)).sum = f v * σ.injected.length := by
    intro v hv
    have hl : (copies net σ.injected v).length = σ.injected.length := by simp [copies]
    have hc : (copies net σ.injected v).map (fun t => f t.node) = (copies net σ.injected v).map (fun _ => f v) :=
      List.map_congr_left (fun t ht => by rw [((mem_copies hg hin hv t).mp ht).2])
    rw [hc]
    simp [hl, Nat.mul_comm]
  have : ∀ l : List Nat, (∀ v ∈ l, v ∈ ns) →
      ((l.flatMap (copies net σ.injected)).map (fun t => f t.node)).sum = (l.map f).sum * σ.injected.length := by
    intro l
    induction l with
    | nil => intro _; simp
    | cons v l ih =>
      intro h
      simp only [List.flatMap_cons, List.map_append, List.sum_append, List.map_cons, List.sum_cons, Nat.add_mul]
      rw [hone v (h v (by simp)), ih (fun w hw => h w (by simp [hw]))]
  exact this ns (fun _ h => h)

theorem subperm_sum {α : Type} {f : α → Nat} {l r : List α} (h : l.Subperm r) : (l.map f).sum ≤ (r.map f).sum := by
  obtain ⟨x, hp, hs⟩ := h
  have e : (l.map f).sum = (x.map f).sum := ((hp.map f).sum_nat).symm
  rw [e]
  clear hp e
  induction hs with
  | slnil => simp
  | cons a _ ih => simp; omega
  | cons_cons a _ ih => simp; omega

/-! ## C56: trees -/

/-- In a tree of links, at every moment of every execution every node has seen at most one copy of each message, and once
no message is on its way exactly one: on the node where it was published the message itself, elsewhere a copy with the same
topic and document, its sender extended in front. -/
theorem C56_tree_exactly_once (hne : ns ≠ []) (hw : Wired ns net) (hc : Connected ns net) (ha : Acyclic net) {as : List Act} {σ : St}
    (he : exec net .quiet as = some σ) (hp : Proper net σ) (hin : ∀ x ∈ σ.injected, x.1 ∈ ns) (v : Nat) (hv : v ∈ ns) :
    ∃ pre : Nat → Str,
      let seen := (σ.published.filter (fun x => x.1 = v)).map Prod.snd
      let wanted := σ.injected.map (fun x => if x.1 = v then x.2 else ⟨pre x.1 ++ x.2.sender, x.2.topic, x.2.dg.wire⟩)
      seen.Subperm wanted ∧ (Quiescent σ → seen.Perm wanted) := by
  have hg := grown_of_acyclic hne hw hc ha
  obtain ⟨P, Q, T, hi⟩ := exec_inv hw.once hw.plain as .quiet σ he hp (fun _ => ⟨_, _, _, inv_quiet net⟩)
  refine ⟨fun o => stamps (way net o v), ?_⟩
  have e1 : (σ.published.filter (fun x => x.1 = v)).map Prod.snd = (P.filter (fun t => t.node = v)).map Tag.val := by
    rw [hi.published, List.filter_map, List.map_map]
    rfl
  rw [← copies_val hg hin hv, e1]
  obtain ⟨h1, h2⟩ := hi.onNode hg hin hv
  refine ⟨?_, fun hq => (h2 hq).map _⟩
  obtain ⟨l, hl, hs⟩ := h1
  exact ⟨l.map Tag.val, hl.map _, hs.map _⟩

/-- In a tree of links relaying ends: each message costs at most three steps per connection, whatever the order of events,
and exactly that many when no message is on its way any more. -/
theorem C56_tree_ends (hne : ns ≠ []) (hw : Wired ns net) (hc : Connected ns net) (ha : Acyclic net) {as : List Act} {σ : St}
    (he : exec net .quiet as = some σ) (hp : Proper net σ) (hin : ∀ x ∈ σ.injected, x.1 ∈ ns) :
    work as ≤ 3 * (ns.length - 1) * σ.injected.length ∧ (Quiescent σ → work as = 3 * (ns.length - 1) * σ.injected.length) := by
  have hg := grown_of_acyclic hne hw hc ha
  obtain ⟨P, Q, T, hi⟩ := exec_inv hw.once hw.plain as .quiet σ he hp (fun _ => ⟨_, _, _, inv_quiet net⟩)
  have hacc := exec_work as .quiet σ he
  simp only [St.quiet, owed, List.length_nil, List.map_nil, List.sum_nil, Nat.add_zero] at hacc
  have hpub : σ.published.length = (P.map (fun t => (fun _ => 1) t.node)).sum := by rw [hi.published]; simp
  have howe : (σ.published.map (fun x => (leaving net x.1).length)).sum = (P.map (fun t => (fun v => (leaving net v).length) t.node)).sum := by
    rw [hi.published, List.map_map]; rfl
  have hsum := sum_leaving (net := net) ns hw.distinct hw.inside
  have hlen := hg.facts.2.2.2.2
  have hpos : 0 < ns.length := List.length_pos_iff.mpr hne
  obtain ⟨h1, h2⟩ := hi.everywhere hg hin
  have w1 := copies_weight hg hin (fun _ => 1)
  have w2 := copies_weight hg hin (fun v => (leaving net v).length)
  have hns : (ns.map (fun _ => 1)).sum = ns.length := by simp
  rw [hns] at w1
  rw [hsum] at w2
  have hnet : net.length = 2 * (ns.length - 1) := by omega
  have hmul : ns.length * σ.injected.length = (ns.length - 1) * σ.injected.length + σ.injected.length := by
    obtain ⟨n, hn⟩ : ∃ n, ns.length = n + 1 := ⟨ns.length - 1, by omega⟩
    rw [hn]; simp [Nat.add_mul]
  rw [hnet, Nat.mul_assoc] at w2
  rw [Nat.mul_assoc]
  constructor
  · have s1 := subperm_sum (f := fun t : Tag => (fun _ => 1) t.node) h1
    have s2 := subperm_sum (f := fun t : Tag => (fun v => (leaving net v).length) t.node) h1
    beta_reduce at s1 s2 hpub howe
    omega
  · intro hq
    have s1 := ((h2 hq).map (fun t : Tag => (fun _ => 1) t.node)).sum_nat
    have s2 := ((h2 hq).map (fun t : Tag => (fun v => (leaving net v).length) t.node)).sum_nat
    have hz : σ.pending.length = 0 := by rw [hq.1]; rfl
    beta_reduce at s1 s2 hpub howe
    omega

/-! ## C56: networks with a cycle -/

/-- As long as a message is on its way, some link can act. -/
theorem not_stuck {net : List Hop} {σ : St} (h : ¬ Quiescent σ) : ∃ a σ', (∀ v m, a ≠ .publish v m) ∧ step net σ a = some σ' ∧
    σ'.injected = σ.injected := by
  cases hp : σ.pending with
  | cons x l => 
    refine ⟨.deliver 0, if echo x.1.out x.2 then { σ with pending := l } else { σ with pending := l, transit := σ.transit ++ [x] },
      by simp, by simp [step, hp], ?_⟩
    split <;> rfl
  | nil =>
    cases ht : σ.transit with
    | nil => exact absurd ⟨hp, ht⟩ h
    | cons x l =>
      refine ⟨.receive 0, announce net x.1.dst (arrive x.1 x.2) { σ with transit := l }, by simp, by simp [step, ht], rfl⟩

/-- If the connections contain a cycle, then from the first message on there is never a moment without a message on its way,
whatever the order of events. -/
theorem C56_cycle_never_quiet (hw : Wired ns net) (hc : Connected ns net) (ha : ¬ Acyclic net) {as : List Act} {σ : St}
    (he : exec net .quiet as = some σ) (hp : Proper net σ) {x : Nat × BMsg} (hx : x ∈ σ.injected) (hin : x.1 ∈ ns) : ¬ Quiescent σ := by
  intro hq
  have hne : ns ≠ [] := List.ne_nil_of_mem hin
  rcases grown_or_long _ ns net (Nat.le_refl _) hne hw hc with hg | hlong
  · exact ha (acyclic_of_grown hg)
  obtain ⟨P, Q, T, hi⟩ := exec_inv hw.once hw.plain as .quiet σ he hp (fun _ => ⟨_, _, _, inv_quiet net⟩)
  obtain ⟨k, hk⟩ := List.mem_iff_getElem?.mp hx
  -- every length occurs among the finitely many copies
  have hall : ∀ n, ∃ t ∈ P, t.r.length = n := by
    intro n
    obtain ⟨r, hr, hn⟩ := hlong x.1 hin n
    exact ⟨⟨k, x.1, x.2, r⟩, hi.complete hq _ ⟨hk, hr⟩, hn⟩
  have hb : ∀ l : List Tag, ∃ n, ∀ t ∈ l, t.r.length < n := by
    intro l
    induction l with
    | nil => exact ⟨0, by simp⟩
    | cons t l ih =>
      obtain ⟨n, hn⟩ := ih
      refine ⟨n + t.r.length + 1, ?_⟩
      intro u hu
      rcases List.mem_cons.mp hu with rfl | hu
      · omega
      · have := hn u hu; omega
  obtain ⟨n, hn⟩ := hb P
  obtain ⟨t, ht, hl⟩ := hall n
  have := hn t ht
  omega

/-- In any network, in every execution, at least one in every `net.length + 1` steps of the links is a publication, apart
from what the messages from outside account for. -/
theorem C56_work_is_publication {net : List Hop} {as : List Act} {σ : St} (he : exec net .quiet as = some σ) :
    work as ≤ (net.length + 1) * σ.published.length := by
  have hacc := exec_work as .quiet σ he
  simp only [St.quiet, owed, List.length_nil, List.map_nil, List.sum_nil, Nat.add_zero] at hacc
  have := owed_le net σ.published
  simp only [owed] at this
  rw [Nat.add_mul, Nat.one_mul, Nat.mul_comm net.length]
  omega

theorem exec_append {net : List Hop} : ∀ (as bs : List Act) (σ : St), exec net σ (as ++ bs) = (exec net σ as).bind (fun τ => exec net τ bs)
  | [], _, _ => rfl
  | a :: as, bs, σ => by
    simp only [List.cons_append, exec]
    cases step net σ a with
    | none => rfl
    | some τ => exact exec_append as bs τ

theorem work_append (as bs : List Act) : work (as ++ bs) = work as + work bs := by
  induction as with
  | nil => simp [work]
  | cons a as ih => cases a <;> simp [work, ih] <;> omega

/-- If the connections contain a cycle, a message circulates for ever: without any further message from outside the links go
on for as long as they are allowed to, and the number of publications exceeds every bound. -/
theorem C56_cycle_for_ever (hw : Wired ns net) (hc : Connected ns net) (ha : ¬ Acyclic net) {as : List Act} {σ : St}
    (he : exec net .quiet as = some σ) (hp : Proper net σ) {x : Nat × BMsg} (hx : x ∈ σ.injected) (hin : x.1 ∈ ns) (n : Nat) :
    (∃ bs σ', (∀ v m, .publish v m ∉ bs) ∧ exec net σ bs = some σ' ∧ work bs = n) ∧
    (∀ bs σ', exec net σ bs = some σ' → (net.length + 1) * n ≤ work bs → n ≤ σ'.published.length) := by
  constructor
  · have key : ∀ n, ∃ bs σ', (∀ v m, .publish v m ∉ bs) ∧ exec net σ bs = some σ' ∧ work bs = n ∧ σ'.injected = σ.injected := by
      intro n
      induction n with
      | zero => exact ⟨[], σ, by simp, rfl, rfl, rfl⟩
      | succ n ih =>
        obtain ⟨bs, τ, h1, h2, h3, h4⟩ := ih
        have hq := C56_cycle_never_quiet hw hc ha (as := as ++ bs) (σ := τ) (by rw [exec_append, he]; exact h2)
          (by intro y hy; exact hp y (h4 ▸ hy)) (h4 ▸ hx) hin
        obtain ⟨a, σ', g1, g2, g3⟩ := not_stuck (net := net) hq
        refine ⟨bs ++ [a], σ', ?_, ?_, ?_, g3.trans h4⟩
        · intro v m hm
          rcases List.mem_append.mp hm with hm | hm
          · exact h1 v m hm
          · exact g1 v m (List.mem_singleton.mp hm).symm
        · rw [exec_append, h2]; simp [exec, g2]
        · rw [work_append, h3]
          cases a with
          | publish v m => exact absurd rfl (g1 v m)
          | deliver => rfl
          | receive => rfl
    obtain ⟨bs, σ', h1, h2, h3, _⟩ := key n
    exact ⟨bs, σ', h1, h2, h3⟩
  · intro bs σ' h hn
    have := C56_work_is_publication (net := net) (as := as ++ bs) (σ := σ') (by rw [exec_append, he]; exact h)
    rw [work_append] at this
    have h2 : (net.length + 1) * n ≤ (net.length + 1) * σ'.published.length := by omega
    exact Nat.le_of_mul_le_mul_left h2 (Nat.succ_pos _)

/-! ## C81: one link with many connections -/

theorem hub_route {s : Nat} {l : Str} (hh : Hub net s l) {o : Nat} : ∀ {r : List Hop} {h : Hop}, Route net o (h :: r) → r ≠ [] → h.src ≠ s
  | [], _, _, hne => absurd rfl hne
  | g :: r, h, hr, _ => by
    intro e
    have h1 : g.dst = s := hr.2.1.symm.trans e
    have h2 := (hh h hr.1).1 e
    have h3 := (hh g hr.2.2.2.1).2 h1
    exact hr.2.2.1 g rfl (h2.trans h3.symm)

/-- A node whose connections all belong to one link is never passed through: in every execution of any network, every
publication stems from a message that was published on the node itself or on one from which the node can be reached without
leaving the hub; or from the hub's own messages. -/
theorem C81_hub_not_passed (hn : net.Nodup) (hpl : Plain net) {s : Nat} {l : Str} (hh : Hub net s l) {as : List Act} {σ : St}
    (he : exec net .quiet as = some σ) (hp : Proper net σ) (y : Nat × BMsg) (hy : y ∈ σ.published) :
    ∃ x ∈ σ.injected, x.1 = s ∨ Linked (net.filter (fun h => h.src ≠ s)) x.1 y.1 := by
  obtain ⟨P, Q, T, hi⟩ := exec_inv hn hpl as .quiet σ he hp (fun _ => ⟨_, _, _, inv_quiet net⟩)
  rw [hi.published] at hy
  obtain ⟨t, ht, rfl⟩ := List.mem_map.mp hy
  have hok := hi.pok t ht
  refine ⟨(t.o, t.m), List.mem_of_getElem? hok.1, ?_⟩
  by_cases ho : t.o = s
  · exact .inl ho
  · right
    have : ∀ r, Route net t.o r → Linked (net.filter (fun h => h.src ≠ s)) t.o (stop t.o r) := by
      intro r
      induction r with
      | nil => intro _; exact .here _
      | cons h r ih =>
        intro hr
        have hsrc : h.src ≠ s := by
          cases r with
          | nil => exact fun e => ho (hr.2.1.symm.trans e)
          | cons g r => exact hub_route hh hr (by simp)
        have h1 := ih hr.2.2.2
        rw [← hr.2.1] at h1
        exact .hop h1 (List.mem_filter.mpr ⟨hr.1, by simpa using hsrc⟩)
    exact this t.r hok.2

/-- Nodes connected through one link of a hub do not hear each other: in every execution the only publications are the
messages themselves and copies on the hub. This covers a server with any number of clients, and a link used as server and
client at once. -/
theorem C81_hub_does_not_relay (hn : net.Nodup) (hpl : Plain net) {s : Nat} {l : Str} (hh : Hub net s l)
    (hstar : ∀ h ∈ net, h.src = s ∨ h.dst = s) {as : List Act} {σ : St} (he : exec net .quiet as = some σ) (hp : Proper net σ)
    (hout : ∀ x ∈ σ.injected, x.1 ≠ s) : ∀ y ∈ σ.published, y ∈ σ.injected ∨ y.1 = s := by
  obtain ⟨P, Q, T, hi⟩ := exec_inv hn hpl as .quiet σ he hp (fun _ => ⟨_, _, _, inv_quiet net⟩)
  intro y hy
  rw [hi.published] at hy
  obtain ⟨t, ht, rfl⟩ := List.mem_map.mp hy
  obtain ⟨h1, h2⟩ := hi.pok t ht
  have hmem : (t.o, t.m) ∈ σ.injected := List.mem_of_getElem? h1
  have ho := hout _ hmem
  obtain ⟨k, o, m, r⟩ := t
  match r, h2 with
  | [], _ => exact .inl hmem
  | [h], hr =>
    rcases hstar h hr.1 with e | e
    · exact absurd (hr.2.1.symm.trans e) ho
    · exact .inr e
  | h :: g :: r, hr =>
    rcases hstar h hr.1 with e | e
    · exact absurd e (hub_route hh hr (by simp))
    · exact .inr e

end

/-! ## Cases that meet the hypotheses -/

namespace Ex

/-- Three nodes in a row; node 1 has one link per connection. -/
def row : List Hop := [⟨0, bs "Link0", 1, bs "Link0"⟩, ⟨1, bs "Link0", 0, bs "Link0"⟩, ⟨1, bs "Link1", 2, bs "Link0"⟩, ⟨2, bs "Link0", 1, bs "Link1"⟩]
/-- Three nodes in a ring. -/
def ring : List Hop := [⟨0, bs "Link0", 1, bs "Link1"⟩, ⟨1, bs "Link1", 0, bs "Link0"⟩, ⟨1, bs "Link0", 2, bs "Link1"⟩, ⟨2, bs "Link1", 1, bs "Link0"⟩,
  ⟨2, bs "Link0", 0, bs "Link1"⟩, ⟨0, bs "Link1", 2, bs "Link0"⟩]
/-- Two clients of one server. -/
def star : List Hop := [⟨0, bs "Link0", 1, bs "Link0"⟩, ⟨1, bs "Link0", 0, bs "Link0"⟩, ⟨0, bs "Link0", 2, bs "Link0"⟩, ⟨2, bs "Link0", 0, bs "Link0"⟩]
/-- A message. -/
def msg : BMsg := ⟨bs "SysInfo0", bs "t", .value (.int 7)⟩
/-- It is published on node 0 and everything is worked off. -/
def rowRun : List Act := [.publish 0 msg, .deliver 0, .receive 0, .deliver 1, .deliver 0, .receive 0, .deliver 0]

theorem row_wired : Wired [0, 1, 2] row := ⟨by decide, by decide, by decide, by decide, by decide, by decide, by decide⟩
theorem ring_wired : Wired [0, 1, 2] ring := ⟨by decide, by decide, by decide, by decide, by decide, by decide, by decide⟩

theorem row_connected : Connected [0, 1, 2] row := by
  have h01 : ∀ u, Linked row u 0 → Linked row u 1 := fun u h => .hop (h := ⟨0, bs "Link0", 1, bs "Link0"⟩) h (by decide)
  have h10 : ∀ u, Linked row u 1 → Linked row u 0 := fun u h => .hop (h := ⟨1, bs "Link0", 0, bs "Link0"⟩) h (by decide)
  have h12 : ∀ u, Linked row u 1 → Linked row u 2 := fun u h => .hop (h := ⟨1, bs "Link1", 2, bs "Link0"⟩) h (by decide)
  have h21 : ∀ u, Linked row u 2 → Linked row u 1 := fun u h => .hop (h := ⟨2, bs "Link0", 1, bs "Link1"⟩) h (by decide)
  intro u hu v hv
  simp only [List.mem_cons, List.not_mem_nil, or_false] at hu hv
  rcases hu with rfl | rfl | rfl <;> rcases hv with rfl | rfl | rfl
  · exact .here _
  · exact h01 _ (.here _)
  · exact h12 _ (h01 _ (.here _))
  · exact h10 _ (.here _)
  · exact .here _
  · exact h12 _ (.here _)
  · exact h10 _ (h21 _ (.here _))
  · exact h21 _ (.here _)
  · exact .here _

theorem ring_connected : Connected [0, 1, 2] ring := by
  have h01 : ∀ u, Linked ring u 0 → Linked ring u 1 := fun u h => .hop (h := ⟨0, bs "Link0", 1, bs "Link1"⟩) h (by decide)
  have h12 : ∀ u, Linked ring u 1 → Linked ring u 2 := fun u h => .hop (h := ⟨1, bs "Link0", 2, bs "Link1"⟩) h (by decide)
  have h20 : ∀ u, Linked ring u 2 → Linked ring u 0 := fun u h => .hop (h := ⟨2, bs "Link0", 0, bs "Link1"⟩) h (by decide)
  intro u hu v hv
  simp only [List.mem_cons, List.not_mem_nil, or_false] at hu hv
  rcases hu with rfl | rfl | rfl <;> rcases hv with rfl | rfl | rfl
  · exact .here _
  · exact h01 _ (.here _)
  · exact h12 _ (h01 _ (.here _))
  · exact h20 _ (h12 _ (.here _))
  · exact .here _
  · exact h12 _ (.here _)
  · exact h20 _ (.here _)
  · exact h01 _ (h20 _ (.here _))
  · exact .here _

theorem row_acyclic : Acyclic row := by
  refine acyclic_of_grown (ns := [2, 1, 0]) (.attach (ns := [1, 0]) (a := 1) (b := 2) (x := bs "Link1") (y := bs "Link0")
    (.attach (a := 0) (b := 1) (x := bs "Link0") (y := bs "Link0") (.single 0) (by decide) (by decide) (by simp) (.refl _) (.refl _))
    (by decide) (by decide) (by decide) (.refl _) ?_)
  decide

theorem ring_cyclic : ¬ Acyclic ring := by
  intro h
  have := h 0 [⟨2, bs "Link0", 0, bs "Link1"⟩, ⟨1, bs "Link0", 2, bs "Link1"⟩, ⟨0, bs "Link0", 1, bs "Link1"⟩]
    ⟨by decide, rfl, by decide, by decide, rfl, by decide, by decide, rfl, by decide, trivial⟩ rfl
  cases this

theorem not_from {n : Str} (hn : n = bs "Link0" ∨ n = bs "Link1") : ¬ Link.FromLink n (bs "SysInfo0") := by
  rw [← echo_iff n ⟨bs "SysInfo0", [], .empty⟩]
  rcases hn with rfl | rfl <;> decide

end Ex

example : ∃ σ, exec Ex.row .quiet Ex.rowRun = some σ ∧ Proper Ex.row σ ∧ (∀ x ∈ σ.injected, x.1 ∈ [0, 1, 2]) ∧ Quiescent σ ∧
    σ.published.map Prod.fst = [0, 1, 2] ∧ work Ex.rowRun = 6 := by
  refine ⟨_, rfl, ?_, by decide, ⟨by rfl, by rfl⟩, by rfl, by rfl⟩
  intro x hx h hh _
  have hx : x = (0, Ex.msg) := by
    have : x ∈ [(0, Ex.msg)] := hx
    simpa using this
  subst hx
  apply Ex.not_from
  revert h; decide

-- hence the conclusions of both theorems about trees hold of this execution
example (σ : St) (he : exec Ex.row .quiet Ex.rowRun = some σ) (hp : Proper Ex.row σ) (hin : ∀ x ∈ σ.injected, x.1 ∈ [0, 1, 2]) :=
  And.intro (C56_tree_exactly_once (by simp) Ex.row_wired Ex.row_connected Ex.row_acyclic he hp hin 2 (by simp))
    (C56_tree_ends (by simp) Ex.row_wired Ex.row_connected Ex.row_acyclic he hp hin)

example : ∃ σ, exec Ex.ring .quiet [.publish 0 Ex.msg, .deliver 0, .receive 0] = some σ ∧ ¬ Quiescent σ ∧
    ∃ bs σ', (∀ v m, .publish v m ∉ bs) ∧ exec Ex.ring σ bs = some σ' ∧ work bs = 70 ∧ 10 ≤ σ'.published.length := by
  have hp : ∀ σ : St, σ.injected = [(0, Ex.msg)] → Proper Ex.ring σ := by
    intro σ hs x hx h hh _
    rw [hs] at hx
    simp only [List.mem_singleton] at hx
    subst hx
    apply Ex.not_from
    revert h; decide
  obtain ⟨σ, he, hs⟩ : ∃ σ, exec Ex.ring .quiet [.publish 0 Ex.msg, .deliver 0, .receive 0] = some σ ∧ σ.injected = [(0, Ex.msg)] :=
    ⟨_, rfl, rfl⟩
  have hx : (0, Ex.msg) ∈ σ.injected := by simp [hs]
  obtain ⟨⟨acts, σ', h1, h2, h3⟩, _⟩ := C56_cycle_for_ever Ex.ring_wired Ex.ring_connected Ex.ring_cyclic he (hp σ hs) hx (by simp) 70
  have h4 := (C56_cycle_for_ever Ex.ring_wired Ex.ring_connected Ex.ring_cyclic he (hp σ hs) hx (by simp) 10).2 acts σ' h2 (by rw [h3]; decide)
  exact ⟨σ, he, C56_cycle_never_quiet Ex.ring_wired Ex.ring_connected Ex.ring_cyclic he (hp σ hs) hx (by simp), acts, σ', h1, h2, h3, h4⟩

example : ∃ σ, exec Ex.star .quiet [.publish 1 Ex.msg, .deliver 0, .receive 0, .deliver 1, .deliver 0] = some σ ∧ Proper Ex.star σ ∧
    Hub Ex.star 0 (bs "Link0") ∧ Plain Ex.star ∧ Ex.star.Nodup ∧ (∀ h ∈ Ex.star, h.src = 0 ∨ h.dst = 0) ∧ (∀ x ∈ σ.injected, x.1 ≠ 0) ∧
    Quiescent σ ∧ σ.published.map Prod.fst = [1, 0] := by
  refine ⟨_, rfl, ?_, by unfold Hub; decide, by unfold Plain; decide, by decide, by decide, by decide, ⟨by rfl, by rfl⟩, by rfl⟩
  intro x hx h hh _
  have hx : x = (1, Ex.msg) := by
    have : x ∈ [(1, Ex.msg)] := hx
    simpa using this
  subst hx
  apply Ex.not_from
  revert h; decide

end LP.Net
