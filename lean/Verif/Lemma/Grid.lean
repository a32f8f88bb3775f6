import Verif.Spec.Grid
import Verif.Lemma.Net
import Verif.Prop.BusQueue
/-!
# Every execution of a network of hosts is one of `Verif.Model.Net`
-/
namespace LP.Grid
open LP.Bus (BMsg Delivery received)
open LP.Net (Hop)

/-! ## Lists -/

/-- The published messages whose numbers are not among `done`. -/
def rest (pub : List BMsg) (done : List Nat) : List BMsg := (pub.zipIdx.filter (fun x => decide (x.2 ∉ done))).map Prod.fst

theorem rest_snoc {pub : List BMsg} {done : List Nat} (m : BMsg) (h : ∀ i ∈ done, i < pub.length) :
    rest (pub ++ [m]) done = rest pub done ++ [m] := by
  have hn : pub.length ∉ done := fun hm => Nat.lt_irrefl _ (h _ hm)
  simp [rest, List.zipIdx_append, List.filter_append, hn]

theorem only_index {pub : List BMsg} : ∀ (k i : Nat) (m : BMsg), pub[i]? = some m →
    (pub.zipIdx k).filter (fun x => decide (x.2 = k + i)) = [(m, k + i)] := by
  induction pub with
  | nil => intro k i m h; simp at h
  | cons a l ih =>
    intro k i m h
    cases i with
    | zero =>
      simp only [List.getElem?_cons_zero, Option.some.injEq] at h
      subst h
      rw [List.zipIdx_cons, List.filter_cons_of_pos (by simp)]
      have : (l.zipIdx (k + 1)).filter (fun x => decide (x.2 = k + 0)) = [] := by
        rw [List.filter_eq_nil_iff]
        intro x hx
        have := (List.mem_zipIdx hx).1
        simp only [decide_eq_true_eq]; omega
      rw [this]; rfl
    | succ i =>
      rw [List.getElem?_cons_succ] at h
      have e : k + (i + 1) = k + 1 + i := by omega
      rw [List.zipIdx_cons, List.filter_cons_of_neg (by simp), e, ← ih (k + 1) i m h]

theorem rest_take {pub : List BMsg} {done : List Nat} {i : Nat} {m : BMsg} (h : pub[i]? = some m) (hn : i ∉ done) :
    (rest pub done).Perm (m :: rest pub (done ++ [i])) := by
  have h1 := (List.filter_append_perm (fun x : BMsg × Nat => decide (x.2 = i)) (pub.zipIdx.filter (fun x => decide (x.2 ∉ done)))).symm.map Prod.fst
  refine h1.trans ?_
  rw [List.map_append, List.filter_filter, List.filter_filter]
  have e1 : pub.zipIdx.filter (fun a => decide (a.2 = i) && decide (a.2 ∉ done)) = [(m, i)] := by
    have := only_index 0 i m h
    rw [Nat.zero_add] at this
    rw [← this]
    refine List.filter_congr (fun x _ => ?_)
    by_cases e : x.2 = i
    · simp [e, hn]
    · simp [e]
  have e2 : pub.zipIdx.filter (fun a => (!decide (a.2 = i)) && decide (a.2 ∉ done)) = pub.zipIdx.filter (fun x => decide (x.2 ∉ done ++ [i])) := by
    refine List.filter_congr (fun x _ => ?_)
    by_cases e : x.2 = i <;> by_cases e' : x.2 ∈ done <;> simp [e, e']
  rw [e1, e2]
  exact .refl _

theorem rest_nil {pub : List BMsg} {done : List Nat} (h : ∀ i, i < pub.length → i ∈ done) : rest pub done = [] := by
  rw [rest, List.map_eq_nil_iff, List.filter_eq_nil_iff]
  intro x hx
  have := (List.mem_zipIdx hx).2.1
  simp only [decide_eq_true_eq, Classical.not_not]
  exact h _ (by omega)

/-- The entries of one connection. -/
def on (h : Hop) (l : List (Hop × BMsg)) : List (Hop × BMsg) := l.filter (fun x => decide (x.1 = h))

theorem on_append (h : Hop) (l r : List (Hop × BMsg)) : on h (l ++ r) = on h l ++ on h r := List.filter_append ..

theorem on_erase {h : Hop} {l : List (Hop × BMsg)} {i : Nat} {x : Hop × BMsg} (hx : l[i]? = some x) :
    (on h l).Perm ((if x.1 = h then [x] else []) ++ on h (l.eraseIdx i)) := by
  have := (Net.erase_perm hx).filter (fun x => decide (x.1 = h))
  refine this.trans ?_
  rw [List.filter_cons]
  by_cases e : x.1 = h <;> simp [e, on]

/-! ## Events on a host -/

theorem kinds {b b' : Bus.St} {a : Bus.Act} (hi : Bus.Inv b) (h : Bus.step b a = some b') :
    (∃ i m, a = .push i ∧ b.inflight[i]? = some m ∧ b'.inflight = b.inflight.eraseIdx i ∧ b'.published = b.published ++ [m] ∧
      b'.log = b.log) ∨
    ((∀ i, a ≠ .push i) ∧ b'.published = b.published ∧ b'.log = b.log ∧ ∃ ms, b'.inflight = b.inflight ++ ms) ∨
    ((∀ i, a ≠ .push i) ∧ b'.published = b.published ∧ b'.inflight = b.inflight ∧ ∃ d, b'.log = b.log ++ [d]) := by
  by_cases hr : ∃ c, a = .run c
  · obtain ⟨c, rfl⟩ := hr
    obtain ⟨-, -, -, -, -, h1, h2⟩ := Bus.run_world h
    rcases Bus.step_log hi h with h3 | ⟨_, _, _, d, _, h3, _⟩
    · exact .inr (.inl ⟨by simp, h1, h3, [], by simp [h2]⟩)
    · exact .inr (.inr ⟨by simp, h1, h2, d, h3⟩)
  · have hx := Bus.step_external hi.wok (fun c e => hr ⟨c, e⟩) h
    cases a with
    | push i =>
      simp only [Bus.step] at h
      cases e : b.inflight[i]? with
      | none => simp [e] at h
      | some m => simp only [e] at h; cases h; exact .inl ⟨i, m, rfl, e, rfl, rfl, rfl⟩
    | run c => exact absurd ⟨c, rfl⟩ hr
    | start =>
      right; left
      simp only [Bus.step] at h
      split at h <;> cases h
      exact ⟨by simp, rfl, hx.log, [], by simp⟩
    | notify =>
      right; left
      simp only [Bus.step] at h
      split at h <;> cases h
      exact ⟨by simp, rfl, hx.log, [], by simp⟩
    | publish c m =>
      right; left
      simp only [Bus.step] at h; split at h <;> cases h
      exact ⟨by simp, rfl, rfl, _, rfl⟩
    | pubPublish p d =>
      right; left
      simp only [Bus.step] at h; split at h <;> cases h
      exact ⟨by simp, rfl, rfl, _, rfl⟩
    | _ =>
      right; left
      simp only [Bus.step] at h
      split at h <;> cases h
      exact ⟨by simp, rfl, hx.log, [], by simp⟩

theorem received_snoc (s : Nat) (log : List Delivery) (d : Delivery) :
    received s (log ++ [d]) = received s log ++ (if d.sub = s then [d.idx] else []) := by
  rw [received, List.filter_append, List.map_append, received]
  by_cases e : d.sub = s <;> simp [e]

/-! ## The simulation -/

/-- The messages received by links of node `h.dst` over `h` whose publication is under way. -/
def flying (σ : St) (h : Hop) : List (Hop × BMsg) := on h ((σ.calls h.dst).filterMap id)

/-- How a state of the network of hosts corresponds to one of the plain network. -/
structure Mirror (net : List Hop) (e : Ends) (σ : St) (ν : Net.St) : Prop where
  reach : ∀ v, Bus.Reachable (σ.host v)
  injected : ν.injected = σ.injected
  published : ∀ v, (ν.published.filter (fun x => decide (x.1 = v))).map Prod.snd = (σ.host v).published
  pending : ∀ h, (on h ν.pending).Perm (if h ∈ net then
    (rest (σ.host h.src).published (received (e.sub h) (σ.host h.src).log)).map (fun m => (h, m)) else [])
  transit : ∀ h, (on h ν.transit).Perm (on h σ.way ++ flying σ h ++ on h σ.lost)
  callsLen : ∀ v, (σ.calls v).length = (σ.host v).inflight.length
  callsOf : ∀ (v i : Nat) (h : Hop) (m : BMsg), (σ.calls v)[i]? = some (some (h, m)) → h.dst = v ∧ (σ.host v).inflight[i]? = some (Net.arrive h m)

theorem mirror_silent (net : List Hop) (e : Ends) {σ : St} (h : Silent σ) : Mirror net e σ .quiet := by
  refine ⟨h.reach, h.injected.symm, fun v => (h.published v).symm, fun g => ?_, fun g => ?_, fun v => ?_, fun v i g m hm => ?_⟩
  · rw [h.published]; split <;> exact .refl _
  · rw [flying, h.way, h.lost, h.calls]; exact .refl _
  · rw [h.calls, h.inflight]; rfl
  · rw [h.calls] at hm; simp at hm

theorem put_same {α : Type} (f : Nat → α) (v : Nat) (x : α) : put f v x v = x := by simp [put]
theorem put_other {α : Type} (f : Nat → α) {u v : Nat} (x : α) (h : u ≠ v) : put f v x u = f u := by simp [put, h]

/-- The links of a node are called with a message one after the other. -/
theorem deliver_all (net : List Hop) (m : BMsg) : ∀ (hs : List Hop) (ν : Net.St), hs.Nodup → (∀ h ∈ hs, (h, m) ∈ ν.pending) →
    ∃ as ν', Net.exec net ν as = some ν' ∧ ν'.injected = ν.injected ∧ ν'.published = ν.published ∧
      (∀ g, (on g ν.pending).Perm ((if g ∈ hs then [(g, m)] else []) ++ on g ν'.pending)) ∧
      ν'.transit = ν.transit ++ (hs.filter (fun h => !Net.echo h.out m)).map (fun h => (h, m)) := by
  intro hs
  induction hs with
  | nil => intro ν _ _; exact ⟨[], ν, rfl, rfl, rfl, fun g => by simp, by simp⟩
  | cons h hs ih =>
    intro ν hn hm
    rw [List.nodup_cons] at hn
    obtain ⟨i, hi⟩ := List.mem_iff_getElem?.mp (hm h (by simp))
    let ν1 : Net.St := { ν with pending := ν.pending.eraseIdx i, transit := ν.transit ++ (if Net.echo h.out m then [] else [(h, m)]) }
    have h1 : Net.step net ν (.deliver i) = some ν1 := by
      simp only [Net.step, hi, ν1]
      cases Net.echo h.out m <;> simp
    have hp := fun g => on_erase (h := g) hi
    obtain ⟨as, ν', e1, e2, e3, e4, e5⟩ := ih ν1 hn.2 (fun g hg => by
      have h2 := (Net.erase_perm hi).mem_iff.mp (hm g (by simp [hg]))
      rcases List.mem_cons.mp h2 with h2 | h2
      · cases h2; exact absurd hg hn.1
      · exact h2)
    refine ⟨.deliver i :: as, ν', by simp [Net.exec, h1, e1], e2, e3, fun g => ?_, ?_⟩
    · refine (hp g).trans ?_
      refine ((e4 g).append_left _).trans ?_
      by_cases eg : h = g
      · subst eg
        simp [hn.1, ν1]
      · have eg' : g ≠ h := fun x => eg x.symm
        simp [eg, eg']
    · rw [e5, List.filter_cons]
      cases hc : Net.echo h.out m <;> simp [ν1, hc]

theorem on_announce {net : List Hop} (hn : net.Nodup) (v : Nat) (m : BMsg) (g : Hop) :
    on g ((Net.leaving net v).map (fun h => (h, m))) = if g ∈ net ∧ g.src = v then [(g, m)] else [] := by
  rw [on, List.filter_map]
  have hl : (Net.leaving net v).Nodup := hn.sublist List.filter_sublist
  have hmem : g ∈ Net.leaving net v ↔ g ∈ net ∧ g.src = v := by simp [Net.leaving]
  have : (Net.leaving net v).filter ((fun x : Hop × BMsg => decide (x.1 = g)) ∘ fun h => (h, m)) = if g ∈ net ∧ g.src = v then [g] else [] := by
    rw [if_congr hmem.symm rfl rfl]
    clear hmem
    generalize Net.leaving net v = l at hl
    induction l with
    | nil => rfl
    | cons a l ih =>
      rw [List.nodup_cons] at hl
      rw [List.filter_cons, ih hl.2]
      by_cases e : a = g
      · subst e; simp [hl.1]
      · have e' : g ≠ a := fun x => e x.symm
        simp [e, e']
  rw [this]
  split <;> rfl

theorem received_lt {b : Bus.St} (hi : Bus.Inv b) (s : Nat) : ∀ i ∈ received s b.log, i < b.published.length := by
  intro i h
  simp only [received, List.mem_map, List.mem_filter] at h
  obtain ⟨d, ⟨hd, _⟩, rfl⟩ := h
  exact (List.getElem?_eq_some_iff.mp (hi.log d hd).2.2.1).1

/-- A message is appended to the queue of node `v`. -/
theorem mirror_push {net : List Hop} {e : Ends} (hn : net.Nodup) {σ : St} {ν : Net.St} (hs : Mirror net e σ ν) {v i : Nat} {b : Bus.St}
    (h : Bus.step (σ.host v) (.push i) = some b) {σ' : St} (hσ : step net e σ (.act v (.push i)) = some σ') :
    ∃ as ν', Net.exec net ν as = some ν' ∧ Mirror net e σ' ν' := by
  have hi := (hs.reach v).inv
  have hr : Bus.Reachable b := (hs.reach v).exec (as := [.push i]) (by simp [Bus.exec, h])
  simp only [step, h, Option.some.injEq] at hσ
  rcases kinds hi h with ⟨_, m, e0, h1, h2, h3, h4⟩ | ⟨h0, _⟩ | ⟨h0, _⟩
  case inr.inl => exact absurd rfl (h0 i)
  case inr.inr => exact absurd rfl (h0 i)
  cases e0
  have hlen := hs.callsLen v
  have hil : i < (σ.host v).inflight.length := (List.getElem?_eq_some_iff.mp h1).1
  obtain ⟨c, hc⟩ : ∃ c, (σ.calls v)[i]? = some c := ⟨_, List.getElem?_eq_getElem (by omega)⟩
  have hsend : sends net e v (σ.host v) b = [] := by simp [sends, h4]
  -- what holds of the new state whichever way the message came
  have hpub : ∀ (ν1 : Net.St), ν1.published = ν.published → ∀ u, (((Net.announce net v m ν1).published).filter (fun x => decide (x.1 = u))).map Prod.snd =
      (put σ.host v b u).published := by
    intro ν1 e1 u
    simp only [Net.announce, e1, List.filter_append, List.map_append, hs.published]
    by_cases eu : u = v
    · subst eu; simp [put_same, h3]
    · have eu' : v ≠ u := fun x => eu x.symm
      simp [put_other _ _ eu, eu']
  have hpend : ∀ (ν1 : Net.St), ν1.pending = ν.pending → ∀ g, (on g (Net.announce net v m ν1).pending).Perm (if g ∈ net then
      (rest (put σ.host v b g.src).published (received (e.sub g) (put σ.host v b g.src).log)).map (fun m => (g, m)) else []) := by
    intro ν1 e1 g
    simp only [Net.announce, e1, on_append, on_announce hn]
    have hg := hs.pending g
    by_cases hgn : g ∈ net
    · simp only [hgn, if_true, true_and] at hg ⊢
      by_cases eg : g.src = v
      · simp only [eg, if_true, put_same, h3, h4]
        rw [eg] at hg
        rw [rest_snoc m (received_lt hi _), List.map_append]
        exact hg.append_right _
      · simp only [eg, if_false, List.append_nil, put_other _ _ eg]
        exact hg
    · simp only [hgn, if_false, false_and, List.append_nil] at hg ⊢
      exact hg
  have hcl : ∀ u, (put σ.calls v ((σ.calls v).eraseIdx i) u).length = (put σ.host v b u).inflight.length := by
    intro u
    by_cases eu : u = v
    · subst eu
      rw [put_same, put_same, h2, List.length_eraseIdx, List.length_eraseIdx, hlen]
    · rw [put_other _ _ eu, put_other _ _ eu]; exact hs.callsLen u
  have hco : ∀ (u j : Nat) (g : Hop) (n : BMsg), (put σ.calls v ((σ.calls v).eraseIdx i) u)[j]? = some (some (g, n)) →
      g.dst = u ∧ (put σ.host v b u).inflight[j]? = some (Net.arrive g n) := by
    intro u j g n hj
    by_cases eu : u = v
    · subst eu
      rw [put_same] at hj ⊢
      rw [h2]
      rw [List.getElem?_eraseIdx] at hj ⊢
      split at hj
      · rename_i hlt; rw [if_pos hlt]; exact hs.callsOf u _ g n hj
      · rename_i hlt; rw [if_neg hlt]; exact hs.callsOf u _ g n hj
    · rw [put_other _ _ eu] at hj ⊢; exact hs.callsOf u j g n hj
  have hre : ∀ u, Bus.Reachable (put σ.host v b u) := by
    intro u
    by_cases eu : u = v
    · subst eu; rw [put_same]; exact hr
    · rw [put_other _ _ eu]; exact hs.reach u
  have hfly : ∀ g, (flying σ g).Perm ((if g.dst = v then on g (c.toList) else []) ++ flying σ' g) := by
    intro g
    subst hσ
    simp only [flying, callsAfter]
    by_cases eg : g.dst = v
    · rw [eg, put_same, if_pos rfl]
      have := ((Net.erase_perm hc).filterMap id).filter (fun x => decide (x.1 = g))
      refine this.trans ?_
      cases c with
      | none => simp [on]
      | some x =>
        rw [show List.filterMap id (some x :: (σ.calls v).eraseIdx i) = x :: List.filterMap id ((σ.calls v).eraseIdx i) from rfl,
          List.filter_cons]
        by_cases ex : x.1 = g <;> simp [on, ex]
    · rw [put_other _ _ eg]; simp [eg]
  cases c with
  | none =>
    refine ⟨[.publish v m], { Net.announce net v m ν with injected := ν.injected ++ [(v, m)] }, by simp [Net.exec, Net.step], ?_⟩
    have hf := hfly
    subst hσ
    refine ⟨hre, by simp [injects, h1, hc, hs.injected], hpub ν rfl, hpend ν rfl, fun g => ?_, hcl, hco⟩
    have h5 := hs.transit g
    have h6 := hf g
    simp only [Option.toList, on, List.filter_nil, ite_self, List.nil_append] at h6
    simp only [Net.announce, hsend, List.append_nil]
    exact h5.trans ((h6.append_left _).append_right _)
  | some x =>
    obtain ⟨g0, n⟩ := x
    obtain ⟨hd, harr⟩ := hs.callsOf v i g0 n hc
    rw [h1, Option.some.injEq] at harr
    have hmem : (g0, n) ∈ ν.transit := by
      have h5 : (g0, n) ∈ on g0 ν.transit := by
        rw [(hs.transit g0).mem_iff]
        refine List.mem_append_left _ (List.mem_append_right _ ?_)
        rw [(hfly g0).mem_iff, hd, if_pos rfl]
        simp [on]
      exact (List.mem_filter.mp h5).1
    obtain ⟨j, hj⟩ := List.mem_iff_getElem?.mp hmem
    refine ⟨[.receive j], Net.announce net v m { ν with transit := ν.transit.eraseIdx j },
      by simp [Net.exec, Net.step, hj, hd, harr], ?_⟩
    have hf := hfly
    subst hσ
    refine ⟨hre, by simp [Net.announce, injects, h1, hc, hs.injected], hpub _ rfl, hpend _ rfl, fun g => ?_, hcl, hco⟩
    have h5 := (on_erase (h := g) hj).symm.trans (hs.transit g)
    have h6 := hf g
    simp only [Net.announce, hsend, List.append_nil]
    by_cases eg : g0 = g
    · subst eg
      simp only [if_true, hd, Option.toList, on, List.filter_cons, decide_true, List.filter_nil] at h5 h6
      refine (List.perm_cons (g0, n)).mp (h5.trans ?_)
      refine ((h6.append_left _).append_right _).trans ?_
      rw [List.append_assoc, List.append_assoc, List.append_assoc]
      exact List.perm_middle
    · simp only [eg, if_false, List.nil_append] at h5
      have : (if g.dst = v then on g (some (g0, n)).toList else []) = [] := by
        simp [on, eg]
      rw [this, List.nil_append] at h6
      exact h5.trans ((h6.append_left _).append_right _)

theorem filterMap_none (n : Nat) : (List.replicate n (none : Option (Hop × BMsg))).filterMap id = [] := by
  rw [List.filterMap_eq_nil_iff]
  intro x hx
  rw [List.eq_of_mem_replicate hx]; rfl

/-- What an event on a host other than an append leaves alone. -/
theorem mirror_calls {net : List Hop} {e : Ends} {σ : St} {ν : Net.St} (hs : Mirror net e σ ν) {v : Nat} {b : Bus.St} {ms : List BMsg}
    (hm : b.inflight = (σ.host v).inflight ++ ms) (l : List (Option (Hop × BMsg))) (hl : l.length = ms.length)
    (ho : ∀ (i : Nat) (h : Hop) (m : BMsg), l[i]? = some (some (h, m)) → h.dst = v ∧ ms[i]? = some (Net.arrive h m)) :
    (∀ u, (put σ.calls v (σ.calls v ++ l) u).length = (put σ.host v b u).inflight.length) ∧
    (∀ (u j : Nat) (g : Hop) (n : BMsg), (put σ.calls v (σ.calls v ++ l) u)[j]? = some (some (g, n)) →
      g.dst = u ∧ (put σ.host v b u).inflight[j]? = some (Net.arrive g n)) := by
  constructor
  · intro u
    by_cases eu : u = v
    · subst eu
      rw [put_same, put_same, hm, List.length_append, List.length_append, hl, hs.callsLen]
    · rw [put_other _ _ eu, put_other _ _ eu]; exact hs.callsLen u
  · intro u j g n hj
    by_cases eu : u = v
    · subst eu
      rw [put_same] at hj ⊢
      rw [hm]
      have hlen := hs.callsLen u
      by_cases hlt : j < (σ.calls u).length
      · rw [List.getElem?_append_left hlt] at hj
        rw [List.getElem?_append_left (by omega)]
        exact hs.callsOf u j g n hj
      · rw [List.getElem?_append_right (by omega)] at hj
        rw [List.getElem?_append_right (by omega), ← hlen]
        exact ho _ g n hj
    · rw [put_other _ _ eu] at hj ⊢; exact hs.callsOf u j g n hj

theorem put_published {σ : St} {v : Nat} {b : Bus.St} (h : b.published = (σ.host v).published) (u : Nat) :
    (put σ.host v b u).published = (σ.host u).published := by
  by_cases eu : u = v
  · subst eu; rw [put_same, h]
  · rw [put_other _ _ eu]

theorem put_log {σ : St} {v : Nat} {b : Bus.St} (h : b.log = (σ.host v).log) (u : Nat) :
    (put σ.host v b u).log = (σ.host u).log := by
  by_cases eu : u = v
  · subst eu; rw [put_same, h]
  · rw [put_other _ _ eu]

theorem put_reach {net : List Hop} {e : Ends} {σ : St} {ν : Net.St} (hs : Mirror net e σ ν) {v : Nat} {b : Bus.St} {a : Bus.Act}
    (h : Bus.step (σ.host v) a = some b) (u : Nat) : Bus.Reachable (put σ.host v b u) := by
  by_cases eu : u = v
  · subst eu; rw [put_same]; exact (hs.reach u).exec (as := [a]) (by simp [Bus.exec, h])
  · rw [put_other _ _ eu]; exact hs.reach u

theorem filterMap_put {σ : St} {v : Nat} (l : List (Option (Hop × BMsg))) (g : Hop) :
    on g ((put σ.calls v (σ.calls v ++ l) g.dst).filterMap id) = flying σ g ++ (if g.dst = v then on g (l.filterMap id) else []) := by
  by_cases eg : g.dst = v
  · rw [flying, eg, put_same, if_pos rfl, List.filterMap_append, on_append]
  · rw [flying, put_other _ _ eg, if_neg eg, List.append_nil]

/-- Every event of the network of hosts is matched by events of the plain network. -/
theorem mirror_step {net : List Hop} {e : Ends} (hn : net.Nodup) {σ σ' : St} {ν : Net.St} {a : Act} (hs : Mirror net e σ ν)
    (h : step net e σ a = some σ') : ∃ as ν', Net.exec net ν as = some ν' ∧ Mirror net e σ' ν' := by
  cases a with
  | act v a =>
    cases hb : Bus.step (σ.host v) a with
    | none => simp [step, hb] at h
    | some b =>
      by_cases hp : ∃ i, a = .push i
      · obtain ⟨i, rfl⟩ := hp
        exact mirror_push hn hs hb h
      have hi := (hs.reach v).inv
      have hca : ∀ b', callsAfter (σ.host v) b' (σ.calls v) a =
          σ.calls v ++ List.replicate (b'.inflight.length - (σ.host v).inflight.length) none := by
        intro b'; cases a <;> first | rfl | exact absurd ⟨_, rfl⟩ hp
      have hin : injects v (σ.host v) (σ.calls v) a = [] := by
        cases a <;> first | rfl | exact absurd ⟨_, rfl⟩ hp
      simp only [step, hb, Option.some.injEq, hca, hin, List.append_nil] at h
      have hnone : ∀ (k : Nat) (ms : List BMsg) (i : Nat) (g : Hop) (m : BMsg), (List.replicate k (none : Option (Hop × BMsg)))[i]? = some (some (g, m)) →
          g.dst = v ∧ ms[i]? = some (Net.arrive g m) := by
        intro k ms i g m hm
        have := List.eq_of_mem_replicate (List.mem_of_getElem? hm)
        cases this
      rcases kinds hi hb with ⟨i, _, e0, _⟩ | ⟨_, h1, h2, ms, h3⟩ | ⟨_, h1, h3, d, h2⟩
      · exact absurd ⟨i, e0⟩ hp
      · refine ⟨[], ν, rfl, ?_⟩
        have hsend : sends net e v (σ.host v) b = [] := by simp [sends, h2]
        obtain ⟨c1, c2⟩ := mirror_calls hs h3 (List.replicate (b.inflight.length - (σ.host v).inflight.length) none)
          (by rw [List.length_replicate, h3, List.length_append]; omega) (hnone _ _)
        subst h
        refine ⟨put_reach hs hb, hs.injected, fun u => ?_, fun g => ?_, fun g => ?_, c1, c2⟩
        · rw [put_published h1]; exact hs.published u
        · simp only [put_published h1, put_log h2]; exact hs.pending g
        · have := hs.transit g
          simp only [flying, filterMap_put, filterMap_none, hsend, List.append_nil]
          rw [show on g ([] : List (Hop × BMsg)) = [] from rfl, ite_self, List.append_nil]
          exact this
      · -- a callback begins
        have hib := ((hs.reach v).exec (as := [a]) (σ' := b) (by simp [Bus.exec, hb])).inv
        obtain ⟨-, -, hidx, -⟩ := hib.log d (by rw [h2]; simp)
        rw [h1] at hidx
        have hnew : ∀ g, d.sub = e.sub g → d.idx ∉ received (e.sub g) (σ.host v).log := by
          intro g hg hmem
          have hst := hib.strict
          rw [h2, List.pairwise_append] at hst
          simp only [received, List.mem_map, List.mem_filter, decide_eq_true_eq] at hmem
          obtain ⟨d', ⟨hd', hs'⟩, he'⟩ := hmem
          have := hst.2.2 d' hd' d (by simp) (hs'.trans hg.symm)
          omega
        let hs0 := (Net.leaving net v).filter (fun h => e.sub h == d.sub)
        have hmem0 : ∀ g, g ∈ hs0 ↔ (g ∈ net ∧ g.src = v) ∧ e.sub g = d.sub := by
          intro g; simp [hs0, Net.leaving]; grind
        have hrest : ∀ g ∈ hs0, (rest (σ.host v).published (received (e.sub g) (σ.host v).log)).Perm
            (d.msg :: rest (σ.host v).published (received (e.sub g) (σ.host v).log ++ [d.idx])) :=
          fun g hg => rest_take hidx (hnew g ((hmem0 g).mp hg).2.symm)
        obtain ⟨as, ν', e1, e2, e3, e4, e5⟩ := deliver_all net d.msg hs0 ν
          ((hn.sublist List.filter_sublist).sublist List.filter_sublist) (by
            intro g hg
            have hg' := (hmem0 g).mp hg
            have h4 : (g, d.msg) ∈ on g ν.pending := by
              rw [(hs.pending g).mem_iff, if_pos hg'.1.1, hg'.1.2]
              exact List.mem_map.mpr ⟨d.msg, (hrest g hg).mem_iff.mpr (by simp), rfl⟩
            exact (List.mem_filter.mp h4).1)
        refine ⟨as, ν', e1, ?_⟩
        have hsend : sends net e v (σ.host v) b = (hs0.filter (fun h => !Net.echo h.out d.msg)).map (fun h => (h, d.msg)) := by
          simp only [sends, h2, List.drop_left, List.flatMap_cons, List.flatMap_nil, List.append_nil, hs0, List.filter_filter]
          congr 1
          refine List.filter_congr (fun x _ => ?_)
          rw [Bool.and_comm]
        obtain ⟨c1, c2⟩ := mirror_calls hs (ms := []) (by rw [h3, List.append_nil])
          (List.replicate (b.inflight.length - (σ.host v).inflight.length) none)
          (by rw [List.length_replicate, h3]; simp) (hnone _ _)
        subst h
        refine ⟨put_reach hs hb, e2.trans hs.injected, fun u => ?_, fun g => ?_, fun g => ?_, c1, c2⟩
        · rw [put_published h1, e3]; exact hs.published u
        · simp only [put_published h1]
          have h4 := hs.pending g
          have h5 := e4 g
          by_cases hg : g ∈ hs0
          · have hg' := (hmem0 g).mp hg
            rw [if_pos hg] at h5
            rw [if_pos hg'.1.1, hg'.1.2] at h4
            rw [if_pos hg'.1.1, hg'.1.2, put_same, h2, received_snoc, if_pos hg'.2.symm]
            have h6 := (hrest g hg).map (fun m => (g, m))
            exact (List.perm_cons _).mp ((h5.symm.trans h4).trans h6)
          · rw [if_neg hg, List.nil_append] at h5
            refine (h5.symm.trans h4).trans ?_
            by_cases hgn : g ∈ net
            · rw [if_pos hgn, if_pos hgn]
              by_cases eg : g.src = v
              · have hne : d.sub ≠ e.sub g := fun x => hg ((hmem0 g).mpr ⟨⟨hgn, eg⟩, x.symm⟩)
                rw [eg, put_same, h2, received_snoc, if_neg hne, List.append_nil]
              · rw [put_other _ _ eg]
            · rw [if_neg hgn, if_neg hgn]
        · have h4 := hs.transit g
          simp only [flying, filterMap_put, filterMap_none, hsend, e5, on_append]
          rw [show on g ([] : List (Hop × BMsg)) = [] from rfl, ite_self, List.append_nil]
          refine (h4.append_right _).trans ?_
          simp only [flying, List.append_assoc]
          refine List.Perm.append_left _ ?_
          rw [← List.append_assoc]
          exact List.perm_append_comm
  | receive k =>
    simp only [step] at h
    cases hk : σ.way[k]? with
    | none => simp [hk] at h
    | some x =>
      obtain ⟨g0, m⟩ := x
      simp only [hk] at h
      cases hb : Bus.step (σ.host g0.dst) (.publish (e.bus g0) (Net.arrive g0 m)) with
      | none => simp [hb] at h
      | some b =>
        simp only [hb, Option.some.injEq] at h
        refine ⟨[], ν, rfl, ?_⟩
        obtain ⟨h1, h2, h3⟩ : b.published = (σ.host g0.dst).published ∧ b.log = (σ.host g0.dst).log ∧
            b.inflight = (σ.host g0.dst).inflight ++ (Bus.publishMsg (e.bus g0) (Net.arrive g0 m) (σ.host g0.dst).w).toList := by
          have hb' := hb
          simp only [Bus.step] at hb'
          split at hb' <;> cases hb'
          exact ⟨rfl, rfl, rfl⟩
        have hw : ∀ g, (on g σ.way).Perm ((if g0 = g then [(g0, m)] else []) ++ on g (σ.way.eraseIdx k)) := fun g => on_erase hk
        have hon : ∀ g, on g [(g0, m)] = if g0 = g then [(g0, m)] else [] := by
          intro g; by_cases eg : g0 = g <;> simp [on, eg]
        cases ha : Bus.publishMsg (e.bus g0) (Net.arrive g0 m) (σ.host g0.dst).w with
        | some m' =>
          have hm' : m' = Net.arrive g0 m := by
            simp only [Bus.publishMsg] at ha
            split at ha <;> cases ha
            rfl
          subst hm'
          rw [ha] at h3
          have hlt : (σ.host g0.dst).inflight.length < b.inflight.length := by rw [h3]; simp
          simp only [hlt, if_true, List.append_nil] at h
          obtain ⟨c1, c2⟩ := mirror_calls hs h3 [some (g0, m)] rfl (by
              intro i g n hi'
              cases i with
              | zero => simp only [List.getElem?_cons_zero, Option.some.injEq, Prod.mk.injEq] at hi'; obtain ⟨rfl, rfl⟩ := hi'; exact ⟨rfl, rfl⟩
              | succ i => simp at hi')
          subst h
          refine ⟨put_reach hs hb, hs.injected, fun u => ?_, fun g => ?_, fun g => ?_, c1, c2⟩
          · rw [put_published h1]; exact hs.published u
          · simp only [put_published h1, put_log h2]; exact hs.pending g
          · refine (hs.transit g).trans ?_
            simp only [flying, filterMap_put]
            refine (((hw g).append_right _).append_right _).trans ?_
            refine List.Perm.append_right _ ?_
            rw [show [some (g0, m)].filterMap id = [(g0, m)] from rfl, hon]
            by_cases eg : g0 = g
            · subst eg
              simp only [if_true]
              rw [← List.append_assoc (on g0 _)]
              refine List.Perm.trans ?_ List.perm_append_comm
              rw [List.append_assoc]
            · simp only [eg, if_false, ite_self, List.append_nil, List.nil_append]
              exact .refl _
        | none =>
          rw [ha] at h3
          have hlt : ¬ (σ.host g0.dst).inflight.length < b.inflight.length := by rw [h3]; simp
          simp only [hlt, if_false] at h
          obtain ⟨c1, c2⟩ := mirror_calls hs h3 [] rfl (by simp)
          subst h
          refine ⟨put_reach hs hb, hs.injected, fun u => ?_, fun g => ?_, fun g => ?_, c1, c2⟩
          · rw [put_published h1]; exact hs.published u
          · simp only [put_published h1, put_log h2]; exact hs.pending g
          · refine (hs.transit g).trans ?_
            simp only [flying, filterMap_put, on_append, hon]
            rw [show on g (List.filterMap id ([] : List (Option (Hop × BMsg)))) = [] from rfl, ite_self, List.append_nil]
            refine (((hw g).append_right _).append_right _).trans ?_
            rw [List.append_assoc, List.append_assoc]
            refine List.perm_append_comm.trans ?_
            simp only [List.append_assoc]
            exact .refl _

theorem net_append (net : List Hop) : ∀ (as bs : List Net.Act) (ν ν' : Net.St), Net.exec net ν as = some ν' →
    Net.exec net ν (as ++ bs) = Net.exec net ν' bs
  | [], _, _, _, h => by cases h; rfl
  | a :: as, bs, ν, ν', h => by
    simp only [List.cons_append, Net.exec] at h ⊢
    cases hs : Net.step net ν a with
    | none => simp [hs] at h
    | some τ => rw [hs] at h; exact net_append net as bs τ ν' h

theorem exec_cons {net : List Hop} {e : Ends} {σ σ' : St} {a : Act} {as : List Act} (h : exec net e σ (a :: as) = some σ') :
    ∃ τ, step net e σ a = some τ ∧ exec net e τ as = some σ' := by
  simp only [exec] at h
  split at h <;> try cases h
  exact ⟨_, by assumption, h⟩

theorem mirror_exec {net : List Hop} {e : Ends} (hn : net.Nodup) : ∀ {as : List Act} {σ σ' : St} {ν : Net.St}, Mirror net e σ ν →
    exec net e σ as = some σ' → ∃ bs ν', Net.exec net ν bs = some ν' ∧ Mirror net e σ' ν'
  | [], _, _, ν, hs, h => by cases h; exact ⟨[], ν, rfl, hs⟩
  | a :: as, σ, σ', ν, hs, h => by
    obtain ⟨τ, h1, h2⟩ := exec_cons h
    obtain ⟨bs, ν1, e1, m1⟩ := mirror_step hn hs h1
    obtain ⟨bs', ν2, e2, m2⟩ := mirror_exec hn m1 h2
    exact ⟨bs ++ bs', ν2, by rw [net_append net bs bs' ν ν1 e1]; exact e2, m2⟩

/-- Each host sees an execution of its own. -/
theorem project {net : List Hop} {e : Ends} {σ σ' : St} {as : List Act} (h : exec net e σ as = some σ') (v : Nat) :
    ∃ l, Bus.exec (σ.host v) l = some (σ'.host v) ∧ (.run .throwing ∈ l → .act v (.run .throwing) ∈ as) ∧
      ∀ P : Bus.St → Prop, Throughout net e (fun τ => P (τ.host v)) σ as → Bus.Throughout P (σ.host v) l := by
  induction as generalizing σ with
  | nil => cases h; exact ⟨[], rfl, by simp, fun P h => h⟩
  | cons a as ih =>
    obtain ⟨τ, h1, h2⟩ := exec_cons h
    obtain ⟨l, f1, f2, f3⟩ := ih h2
    have same : τ.host v = σ.host v → ∃ l, Bus.exec (σ.host v) l = some (σ'.host v) ∧
        (.run .throwing ∈ l → .act v (.run .throwing) ∈ a :: as) ∧
        ∀ P : Bus.St → Prop, Throughout net e (fun τ => P (τ.host v)) σ (a :: as) → Bus.Throughout P (σ.host v) l :=
      fun e => ⟨l, e ▸ f1, fun h => List.mem_cons_of_mem _ (f2 h), fun P hP => e ▸ f3 P (hP.2 _ h1)⟩
    have more : ∀ x, Bus.step (σ.host v) x = some (τ.host v) → (x = .run .throwing → a = .act v (.run .throwing)) →
        ∃ l, Bus.exec (σ.host v) l = some (σ'.host v) ∧ (.run .throwing ∈ l → .act v (.run .throwing) ∈ a :: as) ∧
        ∀ P : Bus.St → Prop, Throughout net e (fun τ => P (τ.host v)) σ (a :: as) → Bus.Throughout P (σ.host v) l := by
      intro x hx hthrow
      refine ⟨x :: l, by simp only [Bus.exec, hx]; exact f1, fun h => ?_, fun P hP => ⟨hP.1, fun ρ hρ => ?_⟩⟩
      · rcases List.mem_cons.1 h with h | h
        · rw [hthrow h.symm]; exact List.mem_cons_self
        · exact List.mem_cons_of_mem _ (f2 h)
      · rw [hx] at hρ; cases hρ; exact f3 P (hP.2 _ h1)
    cases a with
    | act s x =>
      cases hb : Bus.step (σ.host s) x with
      | none => simp [step, hb] at h1
      | some b =>
        simp only [step, hb, Option.some.injEq] at h1
        have h3 : τ.host = put σ.host s b := by rw [← h1]
        by_cases e : v = s
        · subst e
          refine more x ?_ (fun e => by rw [e])
          rw [hb, h3, put_same]
        · refine same ?_
          rw [h3, put_other _ _ e]
    | receive k =>
      simp only [step] at h1
      cases hk : σ.way[k]? with
      | none => simp [hk] at h1
      | some x =>
        obtain ⟨g, m⟩ := x
        simp only [hk] at h1
        cases hb : Bus.step (σ.host g.dst) (.publish (e.bus g) (Net.arrive g m)) with
        | none => simp [hb] at h1
        | some b =>
          simp only [hb, Option.some.injEq] at h1
          have h3 : τ.host = put σ.host g.dst b := by rw [← h1]
          by_cases e' : v = g.dst
          · refine more (.publish (e.bus g) (Net.arrive g m)) ?_ (fun e => by cases e)
            rw [e', hb, h3, put_same]
          · refine same ?_
            rw [h3, put_other _ _ e']

end LP.Grid
