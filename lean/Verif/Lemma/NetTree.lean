import Verif.Lemma.Net
import Mathlib.Data.List.Infix
/-!
# Trees of links
-/
namespace LP.Net

/-- Networks made by attaching one new node at a time. -/
inductive Grown : List Nat → List Hop → Prop where
  | single (v : Nat) : Grown [v] []
  | attach {ns ns' : List Nat} {net net' : List Hop} {a b : Nat} {x y : Str} : Grown ns net → a ∈ ns → b ∉ ns →
      (∀ h ∈ net, h.src = a → h.out ≠ x) → ns'.Perm (b :: ns) → net'.Perm (⟨a, x, b, y⟩ :: ⟨b, y, a, x⟩ :: net) → Grown ns' net'

theorem Grown.facts {ns : List Nat} {net : List Hop} (h : Grown ns net) :
    ns.Nodup ∧ net.Nodup ∧ (∀ h ∈ net, h.src ∈ ns ∧ h.dst ∈ ns) ∧ (∀ h ∈ net, h.back ∈ net) ∧ net.length + 2 = 2 * ns.length := by
  induction h with
  | single v => simp
  | @attach ns ns' net net' a b x y h ha hb hx hns hnet ih =>
    obtain ⟨i1, i2, i3, i4, i5⟩ := ih
    have hab : a ≠ b := fun e => hb (e ▸ ha)
    refine ⟨?_, ?_, ?_, ?_, ?_⟩
    · rw [hns.nodup_iff, List.nodup_cons]; exact ⟨hb, i1⟩
    · rw [hnet.nodup_iff, List.nodup_cons, List.nodup_cons]
      refine ⟨?_, ?_, i2⟩
      · rw [List.mem_cons, Hop.mk.injEq]
        rintro (⟨e, _⟩ | e)
        · exact hab e
        · exact hb (i3 _ e).2
      · intro e; exact hb (i3 _ e).1
    · intro g hg
      rw [hns.mem_iff, hns.mem_iff]
      rcases List.mem_cons.mp (hnet.mem_iff.mp hg) with rfl | hg
      · simp [ha]
      rcases List.mem_cons.mp hg with rfl | hg
      · simp [ha]
      · simp [i3 g hg]
    · intro g hg
      rw [hnet.mem_iff]
      rcases List.mem_cons.mp (hnet.mem_iff.mp hg) with rfl | hg
      · simp [Hop.back]
      rcases List.mem_cons.mp hg with rfl | hg
      · simp [Hop.back]
      · simp [i4 g hg]
    · rw [hnet.length_eq, hns.length_eq]; simp; omega

theorem Route.mono {net net' : List Hop} (h : ∀ x ∈ net, x ∈ net') {o : Nat} : ∀ {r : List Hop}, Route net o r → Route net' o r
  | [], _ => trivial
  | _ :: _, ⟨a, b, c, d⟩ => ⟨h _ a, b, c, Route.mono h d⟩

theorem stop_mem {ns : List Nat} {net : List Hop} (h : ∀ x ∈ net, x.dst ∈ ns) {o : Nat} (ho : o ∈ ns) :
    ∀ {r : List Hop}, Route net o r → stop o r ∈ ns
  | [], _ => ho
  | x :: _, hr => h x hr.1

theorem stop_append (o : Nat) (r s : List Hop) : stop o (s ++ r) = stop (stop o r) s := by
  cases s <;> rfl

theorem Route.tail {net : List Hop} {o : Nat} : ∀ {s r : List Hop}, Route net o (s ++ r) → Route net o r
  | [], _, h => h
  | _ :: _, _, h => Route.tail h.2.2.2

theorem Route.front {net : List Hop} {o : Nat} : ∀ {s r : List Hop}, Route net o (s ++ r) → Route net (stop o r) s
  | [], _, _ => trivial
  | x :: s, r, h => by
    refine ⟨h.1, ?_, ?_, Route.front h.2.2.2⟩
    · have := h.2.1
      rw [List.append_eq, stop_append] at this; exact this
    · intro g hg
      refine h.2.2.1 g ?_
      cases s with
      | nil => cases hg
      | cons => exact hg

/-- Exactly one way from each node to each. -/
theorem Grown.unique {ns : List Nat} {net : List Hop} (hG : Grown ns net) :
    ∀ o ∈ ns, ∀ v ∈ ns, ∃ r, (Route net o r ∧ stop o r = v) ∧ ∀ s, Route net o s → stop o s = v → s = r := by
  induction hG with
  | single v =>
    intro o ho w hw
    simp only [List.mem_singleton] at ho hw
    subst ho hw
    refine ⟨[], ⟨trivial, rfl⟩, ?_⟩
    intro s hs _
    cases s with
    | nil => rfl
    | cons h s => exact absurd hs.1 (by simp)
  | @attach ns ns' net net' a b x y h ha hb hx hns hnet ih =>
    obtain ⟨i1, i2, i3, i4, _⟩ := h.facts
    have hab : a ≠ b := fun e => hb (e ▸ ha)
    have hsub : ∀ g ∈ net, g ∈ net' := fun g hg => hnet.mem_iff.mpr (by simp [hg])
    have hcase : ∀ g ∈ net', g = ⟨a, x, b, y⟩ ∨ g = ⟨b, y, a, x⟩ ∨ g ∈ net := by
      intro g hg
      have := hnet.mem_iff.mp hg
      simpa [List.mem_cons] using this
    have hup : (⟨a, x, b, y⟩ : Hop) ∈ net' := hnet.mem_iff.mpr (by simp)
    have hdown : (⟨b, y, a, x⟩ : Hop) ∈ net' := hnet.mem_iff.mpr (by simp)
    have hdst : ∀ g ∈ net, g.dst ∈ ns := fun g hg => (i3 g hg).2
    -- routes from an old node
    have old : ∀ o ∈ ns, ∀ r, Route net' o r → Route net o r ∨ ∃ r', r = ⟨a, x, b, y⟩ :: r' ∧ Route net o r' ∧ stop o r' = a := by
      intro o ho r
      induction r with
      | nil => intro _; exact .inl trivial
      | cons g r ihr =>
        rintro ⟨h1, h2, h3, h4⟩
        rcases ihr h4 with hr | ⟨r', rfl, hr, he⟩
        · rcases hcase g h1 with rfl | rfl | hg
          · exact .inr ⟨r, rfl, hr, h2.symm⟩
          · exact absurd (show b ∈ ns from (show b = stop o r from h2) ▸ stop_mem hdst ho hr) hb
          · exact .inl ⟨hg, h2, h3, hr⟩
        · exfalso
          have hs : g.src = b := h2
          rcases hcase g h1 with rfl | rfl | hg
          · exact hab hs
          · exact h3 _ rfl rfl
          · exact hb (hs ▸ (i3 g hg).1)
    have oldup : ∀ o r', Route net o r' → stop o r' = a → Route net' o (⟨a, x, b, y⟩ :: r') := by
      intro o r' hr he
      refine ⟨hup, he.symm, ?_, hr.mono hsub⟩
      intro g hg
      cases r' with
      | nil => cases hg
      | cons g' r'' =>
        simp only [List.head?_cons, Option.mem_some_iff] at hg
        subst hg
        have hm := i4 _ hr.1
        have := hx _ hm he
        exact fun e => this e.symm
    -- routes from the new node
    have new : ∀ r, Route net' b r → r = [] ∨ ∃ s, r = s ++ [⟨b, y, a, x⟩] ∧ Route net a s := by
      intro r
      induction r with
      | nil => intro _; exact .inl rfl
      | cons g r ihr =>
        rintro ⟨h1, h2, h3, h4⟩
        rcases ihr h4 with rfl | ⟨s, rfl, hs⟩
        · right
          refine ⟨[], ?_, trivial⟩
          have hsrc : g.src = b := h2
          rcases hcase g h1 with rfl | rfl | hg
          · exact absurd hsrc hab
          · rfl
          · exact absurd (hsrc ▸ (i3 g hg).1) hb
        · right
          refine ⟨g :: s, rfl, ?_⟩
          have hsrc : g.src = stop a s := by rw [h2, stop_append]; rfl
          have hin : g ∈ net := by
            rcases hcase g h1 with rfl | rfl | hg
            · exfalso
              cases s with
              | nil => exact h3 _ rfl rfl
              | cons k s =>
                obtain ⟨r0, _, hu⟩ := ih a ha a ha
                have e1 := hu [] trivial rfl
                have e2 := hu (k :: s) hs hsrc.symm
                rw [← e1] at e2
                cases e2
            · exact absurd (show b ∈ ns from (show b = stop a s from hsrc) ▸ stop_mem hdst ha hs) hb
            · exact hg
          refine ⟨hin, hsrc, ?_, hs⟩
          intro k hk
          refine h3 k ?_
          cases s with
          | nil => cases hk
          | cons => exact hk
    have newup : ∀ s, Route net a s → Route net' b (s ++ [⟨b, y, a, x⟩]) := by
      intro s
      induction s with
      | nil => intro _; exact ⟨hdown, rfl, by simp, trivial⟩
      | cons g s ihs =>
        rintro ⟨h1, h2, h3, h4⟩
        refine ⟨hsub g h1, ?_, ?_, ihs h4⟩
        · show g.src = stop b (s ++ [⟨b, y, a, x⟩])
          rw [h2, stop_append]; rfl
        · intro k hk
          cases s with
          | nil =>
            obtain rfl : _ = k := Option.some.inj hk
            exact hx g h1 h2
          | cons => exact h3 k hk
    intro o ho v hv
    rcases List.mem_cons.mp (hns.mem_iff.mp ho) with rfl | ho
    · rcases List.mem_cons.mp (hns.mem_iff.mp hv) with rfl | hv
      · refine ⟨[], ⟨trivial, rfl⟩, fun s hs he => ?_⟩
        rcases new s hs with rfl | ⟨s', rfl, hs'⟩
        · rfl
        · rw [stop_append] at he
          exact absurd (he ▸ stop_mem hdst ha hs') hb
      · obtain ⟨r, ⟨hr, he⟩, hu⟩ := ih a ha v hv
        refine ⟨r ++ [⟨o, y, a, x⟩], ⟨newup r hr, by rw [stop_append]; exact he⟩, fun s hs hse => ?_⟩
        rcases new s hs with rfl | ⟨s', rfl, hs'⟩
        · exact absurd (show o ∈ ns from (show o = v from hse) ▸ hv) hb
        · rw [stop_append] at hse
          rw [hu s' hs' hse]
    · rcases List.mem_cons.mp (hns.mem_iff.mp hv) with rfl | hv
      · obtain ⟨r, ⟨hr, he⟩, hu⟩ := ih o ho a ha
        refine ⟨⟨a, x, v, y⟩ :: r, ⟨oldup o r hr he, rfl⟩, fun s hs hse => ?_⟩
        rcases old o ho s hs with hs' | ⟨s', rfl, hs', he'⟩
        · exact absurd (hse ▸ stop_mem hdst ho hs') hb
        · rw [hu s' hs' he']
      · obtain ⟨r, ⟨hr, he⟩, hu⟩ := ih o ho v hv
        refine ⟨r, ⟨hr.mono hsub, he⟩, fun s hs hse => ?_⟩
        rcases old o ho s hs with hs' | ⟨s', rfl, hs', he'⟩
        · exact hu s hs' hse
        · exact absurd (show b ∈ ns from (show b = v from hse) ▸ hv) hb

/-- Routes of any length, or the network has grown node by node. -/
theorem grown_or_long : ∀ (n : Nat) (ns : List Nat) (net : List Hop), net.length ≤ n → ns ≠ [] → Wired ns net → Connected ns net →
    Grown ns net ∨ ∀ o ∈ ns, ∀ k, ∃ r, Route net o r ∧ r.length = k := by
  intro n
  induction n with
  | zero => 
    intro ns net hl hne hw hc
    have : net = [] := List.eq_nil_of_length_eq_zero (by omega)
    subst this
    left
    match ns, hne with
    | [v], _ => exact .single v
    | v :: w :: ns, _ =>
      exfalso
      have := hc v (by simp) w (by simp)
      have hvw : v = w := by
        cases this with
        | here => rfl
        | hop _ h => cases h
      have := hw.distinct
      simp [hvw] at this
  | succ n ih =>
    intro ns net hl hne hw hc
    by_cases hleaf : ∃ b ∈ ns, (leaving net b).length ≤ 1
    · obtain ⟨b, hb, hlen⟩ := hleaf
      cases hlv : leaving net b with
      | nil =>
        have hno : ∀ h ∈ net, h.src ≠ b := fun h hh e => by
          have : h ∈ leaving net b := List.mem_filter.mpr ⟨hh, by simpa using e⟩
          rw [hlv] at this; cases this
        have honly : ∀ v ∈ ns, v = b := by
          intro v hv
          have := hc v hv b hb
          cases this with
          | here => rfl
          | @hop h _ h2 => exact absurd rfl (hno _ (hw.back _ h2))
        have hns : ns = [b] := by
          match ns, hne, hw.distinct with
          | [v], _, _ => rw [honly v (by simp)]
          | v :: w :: l, _, hd =>
            have e1 := honly v (by simp); have e2 := honly w (by simp)
            simp [e1, e2] at hd
        have hnet : net = [] := by
          cases net with
          | nil => rfl
          | cons h t => exact absurd (honly _ (hw.inside h (by simp))) (hno h (by simp))
        subst hns hnet
        exact .inl (.single b)
      | cons d rest =>
        have hrest : rest = [] := by
          rw [hlv] at hlen
          cases rest with
          | nil => rfl
          | cons => simp at hlen
        subst hrest
        have hd : d ∈ net ∧ d.src = b := by
          have : d ∈ leaving net b := by rw [hlv]; simp
          simpa [leaving] using this
        have honly : ∀ h ∈ net, h.src = b → h = d := fun h hh e => by
          have : h ∈ leaving net b := List.mem_filter.mpr ⟨hh, by simpa using e⟩
          rw [hlv] at this
          simpa using this
        obtain ⟨s, y, a, x⟩ := d
        obtain ⟨hd, rfl⟩ := hd
        simp only at *
        have hu : (⟨a, x, s, y⟩ : Hop) ∈ net := hw.back _ hd
        have hne' : a ≠ s := by
          rintro rfl
          exact hw.other _ hd (honly _ (hw.back _ hd) rfl)
        have ha : a ∈ ns := hw.inside _ hu
        let ns' := ns.erase s
        let net' := (net.erase ⟨a, x, s, y⟩).erase ⟨s, y, a, x⟩
        have hns : ns.Perm (s :: ns') := List.perm_cons_erase hb
        have hnet : net.Perm (⟨a, x, s, y⟩ :: ⟨s, y, a, x⟩ :: net') := by
          refine (List.perm_cons_erase hu).trans (.cons _ (List.perm_cons_erase ?_))
          rw [(hw.once.mem_erase_iff)]
          exact ⟨by simp [Ne.symm hne'], hd⟩
        have hsn : s ∉ ns' := fun h => (hw.distinct.mem_erase_iff.mp h).1 rfl
        have han : a ∈ ns' := hw.distinct.mem_erase_iff.mpr ⟨hne', ha⟩
        have hnd' := hnet.nodup_iff.mp hw.once
        rw [List.nodup_cons, List.nodup_cons] at hnd'
        have hsub : ∀ h ∈ net', h ∈ net := fun h hh => hnet.mem_iff.mpr (by simp [hh])
        have hsrc : ∀ h ∈ net', h.src ≠ s := fun h hh e => hnd'.2.1 (honly h (hsub h hh) e ▸ hh)
        have hback : ∀ h ∈ net', h.back ∈ net' := by
          intro h hh
          have := hnet.mem_iff.mp (hw.back h (hsub h hh))
          rcases List.mem_cons.mp this with e | this
          · exfalso
            have : h = ⟨s, y, a, x⟩ := by cases h; simp [Hop.back] at e ⊢; tauto
            exact hnd'.2.1 (this ▸ hh)
          rcases List.mem_cons.mp this with e | this
          · exfalso
            have : h = ⟨a, x, s, y⟩ := by cases h; simp [Hop.back] at e ⊢; tauto
            exact hnd'.1 (List.mem_cons_of_mem _ (this ▸ hh))
          · exact this
        have hdst : ∀ h ∈ net', h.dst ≠ s := fun h hh => hsrc _ (hback h hh)
        have hw' : Wired ns' net' := ⟨hw.distinct.erase _, hnd'.2.2,
          fun h hh => hw.distinct.mem_erase_iff.mpr ⟨hsrc h hh, hw.inside h (hsub h hh)⟩, hback,
          fun h hh => hw.other h (hsub h hh), fun h hh g hg => hw.one h (hsub h hh) g (hsub g hg), fun h hh => hw.names h (hsub h hh)⟩
        have hc' : Connected ns' net' := by
          intro u hu' v hv'
          have hus : u ≠ s := fun e => hsn (e ▸ hu')
          have key : ∀ w, Linked net u w → (w ≠ s → Linked net' u w) ∧ (w = s → Linked net' u a) := by
            intro w hl
            induction hl with
            | here => exact ⟨fun _ => .here _, fun e => absurd e hus⟩
            | @hop h h1 h2 ihl =>
              rcases List.mem_cons.mp (hnet.mem_iff.mp h2) with rfl | h3
              · exact ⟨fun e => absurd rfl e, fun _ => ihl.1 hne'⟩
              rcases List.mem_cons.mp h3 with rfl | h3
              · exact ⟨fun _ => ihl.2 rfl, fun e => absurd e hne'⟩
              · exact ⟨fun _ => .hop (ihl.1 (hsrc h h3)) h3, fun e => absurd e (hdst h h3)⟩
          exact (key v (hc u ((hns.mem_iff).mpr (by simp [hu'])) v ((hns.mem_iff).mpr (by simp [hv'])))).1
            (fun e => hsn (e ▸ hv'))
        have hlen' : net'.length ≤ n := by have := hnet.length_eq; simp at this; omega
        have hfresh : ∀ h ∈ net', h.src = a → h.out ≠ x := by
          intro h hh e1 e2
          have := hw.one h (hsub h hh) _ hu e1 e2
          exact hnd'.1 (List.mem_cons_of_mem _ (this ▸ hh))
        rcases ih ns' net' hlen' (List.ne_nil_of_mem han) hw' hc' with hg | hlong
        · exact .inl (.attach hg han hsn hfresh hns hnet)
        · right
          have down : ∀ t, Route net' a t → Route net s (t ++ [⟨s, y, a, x⟩]) := by
            intro t
            induction t with
            | nil => intro _; exact ⟨hd, rfl, by simp, trivial⟩
            | cons g t iht =>
              rintro ⟨h1, h2, h3, h4⟩
              refine ⟨hsub g h1, ?_, ?_, iht h4⟩
              · show g.src = stop s (t ++ [⟨s, y, a, x⟩])
                rw [h2, stop_append]; rfl
              · intro k hk
                cases t with
                | nil =>
                  obtain rfl : _ = k := Option.some.inj hk
                  exact hfresh g h1 h2
                | cons => exact h3 k hk
          intro o ho k
          rcases List.mem_cons.mp (hns.mem_iff.mp ho) with rfl | ho
          · cases k with
            | zero => exact ⟨[], trivial, rfl⟩
            | succ k =>
              obtain ⟨t, ht, hk⟩ := hlong a han k
              exact ⟨_, down t ht, by simp [hk]⟩
          · obtain ⟨t, ht, hk⟩ := hlong o ho k
            exact ⟨t, ht.mono hsub, hk⟩
    · right
      have hmany : ∀ b ∈ ns, ∀ l : Str, ∃ h ∈ net, h.src = b ∧ h.out ≠ l := by
        intro b hb l
        by_contra hcon
        apply hleaf
        refine ⟨b, hb, ?_⟩
        have hall : ∀ h ∈ leaving net b, h ∈ net ∧ h.src = b ∧ h.out = l := by
          intro h hh
          have h1 : h ∈ net ∧ h.src = b := by simpa [leaving] using hh
          refine ⟨h1.1, h1.2, ?_⟩
          by_contra hne2
          exact hcon ⟨h, h1.1, h1.2, hne2⟩
        have hnd : (leaving net b).Nodup := hw.once.filter _
        match hL : leaving net b with
        | [] => simp
        | [_] => simp
        | g :: k :: t =>
          exfalso
          rw [hL] at hall hnd
          have hg := hall g (by simp)
          have hk := hall k (by simp)
          have := hw.one g hg.1 k hk.1 (hg.2.1.trans hk.2.1.symm) (hg.2.2.trans hk.2.2.symm)
          simp [this] at hnd
      intro o ho k
      have hdst : ∀ h ∈ net, h.dst ∈ ns := fun h hh => hw.inside _ (hw.back h hh)
      induction k with
      | zero => exact ⟨[], trivial, rfl⟩
      | succ k ihk =>
        obtain ⟨r, hr, hk⟩ := ihk
        obtain ⟨h, h1, h2, h3⟩ := hmany (stop o r) (stop_mem hdst ho hr) (match r with | [] => [] | g :: _ => g.inn)
        refine ⟨h :: r, ⟨h1, h2, ?_, hr⟩, by simp [hk]⟩
        intro g hg
        cases r with
        | nil => cases hg
        | cons g' r' =>
          simp only [List.head?_cons, Option.mem_some_iff] at hg
          subst hg
          exact h3

theorem tails_nodup {net : List Hop} (ha : Acyclic net) {o : Nat} : ∀ {r : List Hop}, Route net o r → (r.tails.map (stop o)).Nodup
  | [], _ => by simp
  | h :: r, hr => by
    rw [List.tails, List.map_cons, List.nodup_cons]
    refine ⟨?_, tails_nodup ha hr.2.2.2⟩
    intro hm
    obtain ⟨t, ht, he⟩ := List.mem_map.mp hm
    obtain ⟨s, rfl⟩ := (List.mem_tails _ _).mp ht
    have hr' : Route net o ((h :: s) ++ t) := hr
    have := ha _ _ hr'.front (by rw [← stop_append]; exact he.symm)
    cases this

theorem route_short {ns : List Nat} {net : List Hop} (hd : ∀ h ∈ net, h.dst ∈ ns) (ha : Acyclic net) {o : Nat} (ho : o ∈ ns)
    {r : List Hop} (hr : Route net o r) : r.length < ns.length := by
  have h1 := tails_nodup ha hr
  have h2 : (r.tails.map (stop o)) ⊆ ns := by
    intro v hv
    obtain ⟨t, ht, rfl⟩ := List.mem_map.mp hv
    obtain ⟨s, rfl⟩ := (List.mem_tails _ _).mp ht
    exact stop_mem hd ho hr.tail
  have := (List.subperm_of_subset h1 h2).length_le
  simp at this
  omega

theorem Wired.dst {ns : List Nat} {net : List Hop} (hw : Wired ns net) : ∀ h ∈ net, h.dst ∈ ns := fun h hh => hw.inside _ (hw.back h hh)

theorem Wired.plain {ns : List Nat} {net : List Hop} (hw : Wired ns net) : Plain net :=
  fun h hh => ⟨hw.names h hh, hw.names _ (hw.back h hh)⟩

theorem grown_of_acyclic {ns : List Nat} {net : List Hop} (hne : ns ≠ []) (hw : Wired ns net) (hc : Connected ns net) (ha : Acyclic net) :
    Grown ns net := by
  rcases grown_or_long _ ns net (Nat.le_refl _) hne hw hc with h | h
  · exact h
  · obtain ⟨o, ho⟩ := List.exists_mem_of_ne_nil ns hne
    obtain ⟨r, hr, hk⟩ := h o ho ns.length
    have := route_short hw.dst ha ho hr
    omega

theorem acyclic_of_grown {ns : List Nat} {net : List Hop} (hg : Grown ns net) : Acyclic net := by
  intro o r hr he
  by_cases ho : o ∈ ns
  · obtain ⟨r0, _, hu⟩ := hg.unique o ho o ho
    rw [hu r hr he, hu [] trivial rfl]
  · cases r with
    | nil => rfl
    | cons h r =>
      exfalso
      have h1 := (hg.facts.2.2.1 h hr.1).2
      exact ho ((show h.dst = o from he) ▸ h1)

/-- How much calling of links the publications entail. -/
def owed (net : List Hop) (l : List (Nat × Bus.BMsg)) : Nat := (l.map (fun x => (leaving net x.1).length)).sum

theorem exec_work {net : List Hop} : ∀ (as : List Act) (σ σ' : St), exec net σ as = some σ' →
    work as + σ'.injected.length + σ'.pending.length + σ.published.length + owed net σ.published =
      σ'.published.length + owed net σ'.published + σ.injected.length + σ.pending.length
  | [], σ, σ', h => by
    simp only [exec, Option.some.injEq] at h
    subst h
    simp [work]; omega
  | a :: as, σ, σ', h => by
    simp only [exec] at h
    cases hs : step net σ a with
    | none => simp [hs] at h
    | some τ =>
      simp only [hs, Option.bind_some] at h
      have ih := exec_work as τ σ' h
      cases a with
      | publish v m =>
        simp only [step, Option.some.injEq] at hs
        subst hs
        simp [announce, owed, work] at ih ⊢
        omega
      | deliver i =>
        simp only [step] at hs
        split at hs
        · cases hs
        · rename_i hd mm hg
          simp only [Option.some.injEq] at hs
          have hl := (erase_perm hg).length_eq
          simp only [List.length_cons] at hl
          subst hs
          split at ih <;> simp [work] at ih ⊢ <;> omega
      | receive i =>
        simp only [step] at hs
        split at hs
        · cases hs
        · simp only [Option.some.injEq] at hs
          subst hs
          simp [announce, owed, work] at ih ⊢
          omega

theorem owed_le (net : List Hop) (l : List (Nat × Bus.BMsg)) : owed net l ≤ l.length * net.length := by
  induction l with
  | nil => simp [owed]
  | cons x l ih =>
    have := List.length_filter_le (fun h : Hop => decide (h.src = x.1)) net
    simp only [owed, List.map_cons, List.sum_cons, List.length_cons, Nat.add_mul, Nat.one_mul, leaving] at ih ⊢
    omega

theorem sum_leaving {net : List Hop} : ∀ (ns : List Nat), ns.Nodup → (∀ h ∈ net, h.src ∈ ns) →
    (ns.map (fun v => (leaving net v).length)).sum = net.length := by
  induction net with
  | nil => intro ns _ _; simp [leaving]
  | cons h net ih =>
    intro ns hn hs
    have := ih ns hn (fun g hg => hs g (by simp [hg]))
    have hsplit : (ns.map (fun v => (leaving (h :: net) v).length)).sum =
        (ns.map (fun v => if h.src = v then 1 else 0)).sum + (ns.map (fun v => (leaving net v).length)).sum := by
      clear this hs hn
      induction ns with
      | nil => rfl
      | cons v ns ihn =>
        simp only [List.map_cons, List.sum_cons, ihn]
        have : (leaving (h :: net) v).length = (if h.src = v then 1 else 0) + (leaving net v).length := by
          simp only [leaving, List.filter_cons]
          by_cases hv : h.src = v <;> simp [hv]; omega
        omega
    have hone : ∀ ns : List Nat, ns.Nodup → h.src ∈ ns → (ns.map (fun v => if h.src = v then 1 else 0)).sum = 1 := by
      intro ns
      induction ns with
      | nil => intro _ h; cases h
      | cons v ns ihn =>
        intro hn hm
        rw [List.nodup_cons] at hn
        simp only [List.map_cons, List.sum_cons]
        by_cases hv : h.src = v
        · have hz : (ns.map (fun v => if h.src = v then 1 else 0)).sum = 0 := by
            have hz : ∀ l : List Nat, h.src ∉ l → (l.map (fun v => if h.src = v then 1 else 0)).sum = 0 := by
              intro l
              induction l with
              | nil => intro _; rfl
              | cons w l ihl =>
                intro hl
                simp only [List.mem_cons, not_or] at hl
                simp [hl.1, ihl hl.2]
            exact hz ns (hv ▸ hn.1)
          rw [hz]; simp [hv]
        · have := ihn hn.2 ((List.mem_cons.mp hm).resolve_left hv)
          rw [this]; simp [hv]
    rw [hsplit, hone ns hn (hs h (by simp)), this, List.length_cons, Nat.add_comm]

end LP.Net
