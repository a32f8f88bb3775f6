import Verif.Spec.Net
import Verif.Lemma.Wire
import Verif.Lemma.Link
import Verif.Prop.Message
import Mathlib.Data.List.Nodup
import Mathlib.Data.List.Perm.Subperm
/-!
# What a network does with a message
-/
namespace LP.Net
open LP.Bus

/-- A copy of an injected message: which one, and the journey it made. -/
structure Tag where
  k : Nat
  o : Nat
  m : BMsg
  r : List Hop

/-- The node the copy is on. -/
def Tag.node (t : Tag) : Nat := stop t.o t.r
/-- What the copy looks like. -/
def Tag.val (t : Tag) : BMsg := after t.m t.r
/-- The copy after one more hop. -/
def Tag.ext (h : Hop) (t : Tag) : Tag := { t with r := h :: t.r }

@[simp] theorem Tag.ext_r (h : Hop) (t : Tag) : (Tag.ext h t).r = h :: t.r := rfl
@[simp] theorem Tag.ext_o (h : Hop) (t : Tag) : (Tag.ext h t).o = t.o := rfl
@[simp] theorem Tag.ext_m (h : Hop) (t : Tag) : (Tag.ext h t).m = t.m := rfl
@[simp] theorem Tag.ext_k (h : Hop) (t : Tag) : (Tag.ext h t).k = t.k := rfl

theorem Tag.ext_inj {h h' : Hop} {t t' : Tag} : Tag.ext h t = Tag.ext h' t' ↔ h = h' ∧ t = t' := by
  cases t; cases t'
  simp only [Tag.ext, Tag.mk.injEq, List.cons.injEq]
  constructor
  · rintro ⟨a, b, c, d, e⟩; exact ⟨d, a, b, c, e⟩
  · rintro ⟨a, b, c, d, e⟩; exact ⟨b, c, d, a, e⟩

/-- A copy that can exist. -/
def Tag.ok (net : List Hop) (σ : St) (t : Tag) : Prop := σ.injected[t.k]? = some (t.o, t.m) ∧ Route net t.o t.r

/-- How the lists of a network's state are made of copies. -/
structure Inv0 (net : List Hop) (σ : St) (P : List Tag) (Q T : List (Hop × Tag)) : Prop where
  published : σ.published = P.map (fun t => (t.node, t.val))
  pending : σ.pending = Q.map (fun q => (q.1, q.2.val))
  transit : σ.transit = T.map (fun q => (q.1, q.2.val))
  pnodup : P.Nodup
  qnodup : Q.Nodup
  tnodup : T.Nodup
  pok : ∀ t ∈ P, t.ok net σ
  qok : ∀ q ∈ Q, q.1 ∈ net ∧ q.1.src = q.2.node ∧ q.2 ∈ P
  tok : ∀ q ∈ T, Route net q.2.o (q.1 :: q.2.r) ∧ q.2 ∈ P
  qnew : ∀ q ∈ Q, Tag.ext q.1 q.2 ∉ P ∧ q ∉ T
  tnew : ∀ q ∈ T, Tag.ext q.1 q.2 ∉ P
  closed : ∀ h t, Tag.ext h t ∈ P → t ∈ P
  starts : ∀ k o m, σ.injected[k]? = some (o, m) → ⟨k, o, m, []⟩ ∈ P

/-- The same, and no continuation of a journey is forgotten. -/
structure Inv (net : List Hop) (σ : St) (P : List Tag) (Q T : List (Hop × Tag)) : Prop extends Inv0 net σ P Q T where
  all : ∀ t ∈ P, ∀ h, Route net t.o (h :: t.r) → Tag.ext h t ∈ P ∨ (h, t) ∈ Q ∨ (h, t) ∈ T

theorem erase_perm {α : Type} {l : List α} {i : Nat} {x : α} (h : l[i]? = some x) : l.Perm (x :: l.eraseIdx i) := by
  obtain ⟨hi, rfl⟩ := List.getElem?_eq_some_iff.mp h
  exact (List.getElem_cons_eraseIdx_perm hi).symm

theorem fromLink_arrived {n l s : Str} (hn : slash ∉ n) (hl : slash ∉ l) : Link.FromLink n (l ++ [slash] ++ s) ↔ n = l := by
  constructor
  · rintro ⟨x, h⟩
    induction n generalizing l with
    | nil =>
      cases l with
      | nil => rfl
      | cons c l => simp at h; simp [h.1] at hl
    | cons a n ih =>
      cases l with
      | nil => simp at h; simp [← h.1] at hn
      | cons c l =>
        simp only [List.cons_append, List.cons.injEq] at h
        rw [h.1, ih (fun q => hn (by simp [q])) (fun q => hl (by simp [q])) h.2]
  · rintro rfl; exact ⟨s, rfl⟩

theorem echo_iff (n : Str) (m : BMsg) : echo n m = true ↔ Link.FromLink n m.sender := by
  simp only [echo, Msg.wasSentBySender, beq_iff_eq, take_eq_iff, Link.FromLink, List.append_assoc, List.singleton_append]

theorem arrive_after (h : Hop) (m : BMsg) (r : List Hop) : arrive h (after m r) = after m (h :: r) := by
  cases r <;> simp [arrive, after, wire_wire] <;> rfl

/-- The names of the links are free of slashes. -/
def Plain (net : List Hop) : Prop := ∀ h ∈ net, slash ∉ h.out ∧ slash ∉ h.inn

theorem Route.mem {net : List Hop} {o : Nat} : ∀ {r : List Hop}, Route net o r → ∀ h ∈ r, h ∈ net
  | [], _, h, hh => by cases hh
  | g :: r, ⟨h1, _, _, h2⟩, h, hh => by
    rcases List.mem_cons.mp hh with rfl | hh
    · exact h1
    · exact Route.mem h2 h hh

/-- The link lets a copy go exactly if that continues its journey without turning back. -/
theorem echo_tag {net : List Hop} (hp : Plain net) {σ : St} (hprop : Proper net σ) {t : Tag} (ht : t.ok net σ) {h : Hop} (hh : h ∈ net)
    (hs : h.src = t.node) : echo h.out t.val = false ↔ Route net t.o (h :: t.r) := by
  rw [← Bool.not_eq_true, echo_iff]
  obtain ⟨k, o, m, r⟩ := t
  cases r with
  | nil =>
    have := hprop (o, m) (List.mem_of_getElem? ht.1) h hh hs
    exact ⟨fun _ => ⟨hh, hs, by simp, trivial⟩, fun _ => this⟩
  | cons g r =>
    have hg := hp g (ht.2.1)
    simp only [Tag.val, after]
    rw [fromLink_arrived (hp h hh).1 hg.2]
    constructor
    · intro hne
      exact ⟨hh, hs, by simpa using hne, ht.2⟩
    · rintro ⟨_, _, h3, _⟩
      exact h3 g rfl

theorem inv_quiet (net : List Hop) : Inv net .quiet [] [] [] := by
  refine ⟨?_, by simp⟩
  constructor <;> simp [St.quiet]

theorem ok_mono {net : List Hop} {σ σ' : St} {t : Tag} {x : Nat × BMsg} (h : t.ok net σ)
    (he : σ'.injected = σ.injected ++ [x] ∨ σ'.injected = σ.injected) : t.ok net σ' := by
  rcases he with he | he
  · refine ⟨?_, h.2⟩
    rw [he, List.getElem?_append_left, h.1]
    exact (List.getElem?_eq_some_iff.mp h.1).1
  · exact ⟨by rw [he]; exact h.1, h.2⟩

/-- A copy appears on a node. -/
theorem Inv0.announce {net : List Hop} (hn : net.Nodup) {σ : St} {P : List Tag} {Q T : List (Hop × Tag)} {t : Tag} {σ' : St}
    (hi : Inv0 net σ P Q T) (he : σ' = LP.Net.announce net t.node t.val σ ∨ σ' = { LP.Net.announce net t.node t.val σ with injected := σ.injected ++ [(t.o, t.m)] })
    (hok : t.ok net σ') (hnew : t ∉ P) (hq : ∀ q ∈ Q, Tag.ext q.1 q.2 ≠ t) (ht : ∀ q ∈ T, Tag.ext q.1 q.2 ≠ t)
    (hpre : ∀ h u, Tag.ext h u = t → u ∈ P) (hst : ∀ k o m, σ'.injected[k]? = some (o, m) → ⟨k, o, m, []⟩ ∈ P ∨ ⟨k, o, m, []⟩ = t)
    (hleft : ∀ u ∈ P, ∀ h, Route net u.o (h :: u.r) → Tag.ext h u = t ∨ Tag.ext h u ∈ P ∨ (h, u) ∈ Q ∨ (h, u) ∈ T) :
    Inv net σ' (P ++ [t]) (Q ++ (leaving net t.node).map (fun h => (h, t))) T := by
  have hpub : σ'.published = σ.published ++ [(t.node, t.val)] := by rcases he with rfl | rfl <;> rfl
  have hpen : σ'.pending = σ.pending ++ (leaving net t.node).map (fun h => (h, t.val)) := by rcases he with rfl | rfl <;> rfl
  have htr : σ'.transit = σ.transit := by rcases he with rfl | rfl <;> rfl
  have hinj : σ'.injected = σ.injected ++ [(t.o, t.m)] ∨ σ'.injected = σ.injected := by
    rcases he with rfl | rfl
    · exact .inr rfl
    · exact .inl rfl
  have hnt : ∀ q ∈ Q, q.2 ≠ t := fun q h e => hnew (e ▸ (hi.qok q h).2.2)
  have htt : ∀ q ∈ T, q.2 ≠ t := fun q h e => hnew (e ▸ (hi.tok q h).2)
  have hself : ∀ h (u : Tag), Tag.ext h u ≠ u := by
    intro h u e
    have := congrArg (fun t => t.r.length) e
    simp at this
  have hmem : ∀ q, q ∈ (leaving net t.node).map (fun h => (h, t)) ↔ q.1 ∈ net ∧ q.1.src = t.node ∧ q.2 = t := by
    rintro ⟨h, u⟩
    simp only [leaving, List.mem_map, List.mem_filter, decide_eq_true_eq, Prod.mk.injEq]
    constructor
    · rintro ⟨a, ⟨h1, h2⟩, rfl, rfl⟩; exact ⟨h1, h2, rfl⟩
    · rintro ⟨h1, h2, rfl⟩; exact ⟨h, ⟨h1, h2⟩, rfl, rfl⟩
  refine ⟨⟨?_, ?_, ?_, ?_, ?_, ?_, ?_, ?_, ?_, ?_, ?_, ?_, ?_⟩, ?_⟩
  · simp [hpub, hi.published]
  · simp [hpen, hi.pending]
  · rw [htr, hi.transit]
  · exact List.nodup_append.mpr ⟨hi.pnodup, by simp, by rintro a ha b hb rfl; simp only [List.mem_singleton] at hb; exact hnew (hb ▸ ha)⟩
  · refine List.nodup_append.mpr ⟨hi.qnodup, ?_, ?_⟩
    · refine List.Nodup.map ?_ (hn.filter _)
      intro a b h; simpa using h
    · rintro a ha b hb rfl
      exact hnt a ha ((hmem a).mp hb).2.2
  · exact hi.tnodup
  · intro u hu
    rcases List.mem_append.mp hu with hu | hu
    · exact ok_mono (hi.pok u hu) hinj
    · rw [List.mem_singleton.mp hu]; exact hok
  · intro q hq'
    rcases List.mem_append.mp hq' with hq' | hq'
    · obtain ⟨a, b, c⟩ := hi.qok q hq'
      exact ⟨a, b, by simp [c]⟩
    · obtain ⟨a, b, c⟩ := (hmem q).mp hq'
      exact ⟨a, c ▸ b, by simp [c]⟩
  · intro q hq'
    obtain ⟨a, b⟩ := hi.tok q hq'
    exact ⟨a, by simp [b]⟩
  · intro q hq'
    rcases List.mem_append.mp hq' with hq' | hq'
    · obtain ⟨a, b⟩ := hi.qnew q hq'
      exact ⟨by simp [a, hq q hq'], b⟩
    · obtain ⟨a, b, c⟩ := (hmem q).mp hq'
      refine ⟨?_, fun h => htt q h c⟩
      rw [c]
      intro h
      rcases List.mem_append.mp h with h | h
      · exact hnew (hi.closed _ _ h)
      · exact hself _ _ (List.mem_singleton.mp h)
  · intro q hq'
    simp [hi.tnew q hq', ht q hq']
  · intro h u hu
    rcases List.mem_append.mp hu with hu | hu
    · simp [hi.closed h u hu]
    · simp [hpre h u (List.mem_singleton.mp hu)]
  · intro k o m hk
    rcases hst k o m hk with h | h <;> simp [h]
  · intro u hu h hr
    rcases List.mem_append.mp hu with hu | hu
    · rcases hleft u hu h hr with h1 | h1 | h1 | h1
      · exact .inl (by simp [h1])
      · exact .inl (by simp [h1])
      · exact .inr (.inl (by simp [h1]))
      · exact .inr (.inr h1)
    · obtain rfl := List.mem_singleton.mp hu
      exact .inr (.inl (List.mem_append_right _ ((hmem _).mpr ⟨hr.1, hr.2.1, rfl⟩)))

theorem proper_before {net : List Hop} {σ σ' : St} {a : Act} (h : step net σ a = some σ') (hp : Proper net σ') : Proper net σ := by
  intro x hx
  apply hp x
  cases a with
  | publish v m => simp only [step, Option.some.injEq] at h; subst h; simp [hx]
  | deliver i =>
    simp only [step] at h
    split at h
    · cases h
    · simp only [Option.some.injEq] at h; subst h; split <;> exact hx
  | receive i =>
    simp only [step] at h
    split at h
    · cases h
    · simp only [Option.some.injEq] at h; subst h; exact hx

theorem Inv.step {net : List Hop} (hn : net.Nodup) (hpl : Plain net) {σ σ' : St} {a : Act} {P : List Tag} {Q T : List (Hop × Tag)}
    (hi : Inv net σ P Q T) (h : LP.Net.step net σ a = some σ') (hp : Proper net σ') : ∃ P' Q' T', Inv net σ' P' Q' T' := by
  cases a with
  | publish v m =>
    simp only [LP.Net.step, Option.some.injEq] at h
    have hlen : ∀ t ∈ P, t.k < σ.injected.length := fun t ht => (List.getElem?_eq_some_iff.mp (hi.pok t ht).1).1
    refine ⟨_, _, _, hi.toInv0.announce hn (t := ⟨σ.injected.length, v, m, []⟩) (.inr h.symm) ⟨by simp [← h], trivial⟩ ?_ ?_ ?_ ?_ ?_ ?_⟩
    · intro h1; exact absurd (hlen _ h1) (Nat.lt_irrefl _)
    · intro q _ e; have := congrArg Tag.r e; simp at this
    · intro q _ e; have := congrArg Tag.r e; simp at this
    · intro h u e; have := congrArg Tag.r e; simp at this
    · intro k o m' hk
      rw [← h] at hk
      simp only at hk
      rcases Nat.lt_trichotomy k σ.injected.length with hlt | rfl | hgt
      · rw [List.getElem?_append_left hlt] at hk; exact .inl (hi.starts k o m' hk)
      · simp at hk; right; simp [hk]
      · rw [List.getElem?_eq_none (by simp; omega)] at hk; cases hk
    · intro u hu h hr
      exact .inr (hi.all u hu h hr)
  | deliver i =>
    have hp0 := proper_before h hp
    simp only [LP.Net.step] at h
    split at h
    · cases h
    · rename_i hd mm hg
      simp only [Option.some.injEq] at h
      rw [hi.pending, List.getElem?_map] at hg
      cases hq : Q[i]? with
      | none => simp [hq] at hg
      | some q =>
        simp only [hq, Option.map_some, Option.some.injEq, Prod.mk.injEq] at hg
        obtain ⟨rfl, rfl⟩ := hg
        have hperm := erase_perm hq
        have hnd := hperm.nodup_iff.mp hi.qnodup
        rw [List.nodup_cons] at hnd
        have hmem : ∀ x, x ∈ Q ↔ x = q ∨ x ∈ Q.eraseIdx i := fun x => by rw [hperm.mem_iff, List.mem_cons]
        have hqm : q ∈ Q := (hmem q).mpr (.inl rfl)
        obtain ⟨q1, q2, q3⟩ := hi.qok q hqm
        have hech := echo_tag hpl hp0 (hi.pok _ q3) q1 q2
        have hpe : σ.pending.eraseIdx i = (Q.eraseIdx i).map (fun q => (q.1, q.2.val)) := by
          rw [hi.pending, List.eraseIdx_map]
        cases hec : echo q.1.out q.2.val with
        | true =>
          rw [hec] at h
          simp only [if_true] at h
          subst h
          refine ⟨P, Q.eraseIdx i, T, ⟨hi.published, hpe, hi.transit, hi.pnodup, hnd.2, hi.tnodup, hi.pok,
            fun x hx => hi.qok x ((hmem x).mpr (.inr hx)), hi.tok, fun x hx => hi.qnew x ((hmem x).mpr (.inr hx)), hi.tnew, hi.closed,
            hi.starts⟩, ?_⟩
          intro t ht g hr
          rcases hi.all t ht g hr with h1 | h1 | h1
          · exact .inl h1
          · rcases (hmem _).mp h1 with h2 | h2
            · exfalso
              have : q = (g, t) := h2.symm
              subst this
              rw [hech.mpr hr] at hec
              cases hec
            · exact .inr (.inl h2)
          · exact .inr (.inr h1)
        | false =>
          rw [hec] at h
          simp only [Bool.false_eq_true, if_false] at h
          subst h
          have hro := hech.mp hec
          refine ⟨P, Q.eraseIdx i, T ++ [q], ⟨hi.published, hpe, by simp [hi.transit], hi.pnodup, hnd.2, ?_, hi.pok,
            fun x hx => hi.qok x ((hmem x).mpr (.inr hx)), ?_, ?_, ?_, hi.closed, hi.starts⟩, ?_⟩
          · refine List.nodup_append.mpr ⟨hi.tnodup, by simp, ?_⟩
            rintro a ha b hb rfl
            simp only [List.mem_singleton] at hb
            exact (hi.qnew q hqm).2 (hb ▸ ha)
          · intro x hx
            rcases List.mem_append.mp hx with hx | hx
            · exact hi.tok x hx
            · rw [List.mem_singleton.mp hx]; exact ⟨hro, q3⟩
          · intro x hx
            obtain ⟨a, b⟩ := hi.qnew x ((hmem x).mpr (.inr hx))
            refine ⟨a, ?_⟩
            intro hx'
            rcases List.mem_append.mp hx' with h2 | h2
            · exact b h2
            · exact hnd.1 (List.mem_singleton.mp h2 ▸ hx)
          · intro x hx
            rcases List.mem_append.mp hx with hx | hx
            · exact hi.tnew x hx
            · rw [List.mem_singleton.mp hx]; exact (hi.qnew q hqm).1
          · intro t ht g hr
            rcases hi.all t ht g hr with h1 | h1 | h1
            · exact .inl h1
            · rcases (hmem _).mp h1 with h2 | h2
              · exact .inr (.inr (by simp [h2]))
              · exact .inr (.inl h2)
            · exact .inr (.inr (by simp [h1]))
  | receive i =>
    simp only [LP.Net.step] at h
    split at h
    · cases h
    · rename_i hd mm hg
      simp only [Option.some.injEq] at h
      rw [hi.transit, List.getElem?_map] at hg
      cases hq : T[i]? with
      | none => simp [hq] at hg
      | some q =>
        simp only [hq, Option.map_some, Option.some.injEq, Prod.mk.injEq] at hg
        obtain ⟨rfl, rfl⟩ := hg
        have hperm := erase_perm hq
        have hnd := hperm.nodup_iff.mp hi.tnodup
        rw [List.nodup_cons] at hnd
        have hmem : ∀ x, x ∈ T ↔ x = q ∨ x ∈ T.eraseIdx i := fun x => by rw [hperm.mem_iff, List.mem_cons]
        have hqm : q ∈ T := (hmem q).mpr (.inl rfl)
        obtain ⟨q1, q2⟩ := hi.tok q hqm
        have hpe : σ.transit.eraseIdx i = (T.eraseIdx i).map (fun q => (q.1, q.2.val)) := by
          rw [hi.transit, List.eraseIdx_map]
        have hfin : LP.Net.announce net q.1.dst (arrive q.1 q.2.val) { σ with transit := σ.transit.eraseIdx i } =
            LP.Net.announce net (Tag.ext q.1 q.2).node (Tag.ext q.1 q.2).val { σ with transit := σ.transit.eraseIdx i } := by
          rw [Tag.val, arrive_after]; rfl
        rw [hfin] at h
        have hok2 := hi.pok _ q2
        have hi0 : Inv0 net { σ with transit := σ.transit.eraseIdx i } P Q (T.eraseIdx i) :=
          ⟨hi.published, hi.pending, hpe, hi.pnodup, hi.qnodup, hnd.2, hi.pok, hi.qok, fun x hx => hi.tok x ((hmem x).mpr (.inr hx)),
            fun x hx => ⟨(hi.qnew x hx).1, fun h => (hi.qnew x hx).2 ((hmem x).mpr (.inr h))⟩,
            fun x hx => hi.tnew x ((hmem x).mpr (.inr hx)), hi.closed, hi.starts⟩
        refine ⟨_, _, _, hi0.announce hn (.inl h.symm) ⟨?_, q1⟩ (hi.tnew q hqm) ?_ ?_ ?_ ?_ ?_⟩
        · rw [← h]; exact hok2.1
        · intro x hx e
          obtain ⟨e1, e2⟩ := Tag.ext_inj.mp e
          have : x = q := Prod.ext e1 e2
          exact (hi.qnew x hx).2 (this ▸ hqm)
        · intro x hx e
          obtain ⟨e1, e2⟩ := Tag.ext_inj.mp e
          have : x = q := Prod.ext e1 e2
          exact hnd.1 (this ▸ hx)
        · intro g u e
          rw [(Tag.ext_inj.mp e).2]; exact q2
        · intro k o m hk
          rw [← h] at hk
          exact .inl (hi.starts k o m hk)
        · intro u hu g hr
          rcases hi.all u hu g hr with h1 | h1 | h1
          · exact .inr (.inl h1)
          · exact .inr (.inr (.inl h1))
          · rcases (hmem _).mp h1 with h2 | h2
            · left; rw [← h2]
            · exact .inr (.inr (.inr h2))

theorem exec_inv {net : List Hop} (hn : net.Nodup) (hpl : Plain net) : ∀ (as : List Act) (σ σ' : St), exec net σ as = some σ' →
    Proper net σ' → (Proper net σ → ∃ P Q T, Inv net σ P Q T) → ∃ P Q T, Inv net σ' P Q T
  | [], σ, σ', h, hp, hi => by
    simp only [exec, Option.some.injEq] at h
    subst h
    exact hi hp
  | a :: as, σ, σ', h, hp, hi => by
    simp only [exec] at h
    cases hs : step net σ a with
    | none => simp [hs] at h
    | some τ =>
      simp only [hs, Option.bind_some] at h
      refine exec_inv hn hpl as τ σ' h hp (fun hpt => ?_)
      obtain ⟨P, Q, T, hI⟩ := hi (proper_before hs hpt)
      exact hI.step hn hpl hs hpt

theorem Inv.complete {net : List Hop} {σ : St} {P : List Tag} {Q T : List (Hop × Tag)} (hi : Inv net σ P Q T) (hq : Quiescent σ) :
    ∀ t : Tag, t.ok net σ → t ∈ P := by
  have hQ : Q = [] := by have := hi.pending; rw [hq.1] at this; simpa using this
  have hT : T = [] := by have := hi.transit; rw [hq.2] at this; simpa using this
  rintro ⟨k, o, m, r⟩ ht
  induction r with
  | nil => exact hi.starts k o m ht.1
  | cons h r ih =>
    have := ih ⟨ht.1, ht.2.2.2.2⟩
    rcases hi.all _ this h ht.2 with h1 | h1 | h1
    · exact h1
    · simp [hQ] at h1
    · simp [hT] at h1

end LP.Net
