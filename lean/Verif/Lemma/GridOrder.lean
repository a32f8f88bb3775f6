import Verif.Prop.Grid
import Verif.Spec.GridOrder
/-!
# Links keep the order of messages
-/
namespace LP.Grid
open LP.Bus (BMsg Delivery received)
open LP.Net (Hop Wired)

theorem cut {α : Type} {l : List α} {i : Nat} {x : α} (h : l[i]? = some x) : l = l.take i ++ x :: l.drop (i + 1) ∧
    l.eraseIdx i = l.take i ++ l.drop (i + 1) := by
  obtain ⟨hi, rfl⟩ := List.getElem?_eq_some_iff.mp h
  exact ⟨by simp, List.eraseIdx_eq_take_drop_succ l i⟩

theorem through_echo (n : Str) (m : BMsg) : through n m = Net.echo n m := by
  rw [Bool.eq_iff_iff, Net.echo_iff, through, under, List.isPrefixOf_iff_prefix]
  exact ⟨fun ⟨s, h⟩ => ⟨s, h.symm⟩, fun ⟨s, h⟩ => ⟨s, h.symm⟩⟩

/-- What the link at the beginning of `h` has been called with and does not drop. -/
def sent (e : Ends) (σ : St) (h : Hop) : List BMsg := (heard σ h.src (e.sub h)).filter (fun m => !Net.echo h.out m)

/-- What has been published at the end of `h` after coming in over it. -/
def arrivals (σ : St) (h : Hop) : List BMsg := (σ.host h.dst).published.filter (Net.echo h.inn)

/-- What is between being sent and being published. -/
def between (σ : St) (h : Hop) : List BMsg := (flying σ h ++ on h σ.way).map (fun x => Net.arrive h x.2)

/-- What holds of the messages between the two ends of one connection. -/
structure Line (e : Ends) (σ : St) (h : Hop) : Prop where
  few : (flying σ h).length ≤ 1
  sub : (arrivals σ h ++ between σ h).Sublist ((sent e σ h).map (Net.arrive h))
  count : (sent e σ h).length = (arrivals σ h).length + (flying σ h).length + (on h σ.way).length + (on h σ.lost).length

theorem line_same {e : Ends} {σ τ : St} {h : Hop} (hl : Line e σ h) (h1 : sent e τ h = sent e σ h) (h2 : arrivals τ h = arrivals σ h)
    (h3 : flying τ h = flying σ h) (h4 : on h τ.way = on h σ.way) (h5 : on h τ.lost = on h σ.lost) : Line e τ h := by
  refine ⟨by rw [h3]; exact hl.few, ?_, by rw [h1, h2, h3, h4, h5]; exact hl.count⟩
  rw [between, h1, h2, h3, h4]; exact hl.sub

theorem pick_one {l : List Hop} (hn : l.Nodup) (h : Hop) : l.filter (fun g => decide (g = h)) = if h ∈ l then [h] else [] := by
  induction l with
  | nil => rfl
  | cons a l ih =>
    rw [List.nodup_cons] at hn
    rw [List.filter_cons, ih hn.2]
    by_cases e : a = h
    · subst e; simp [hn.1]
    · have e' : h ≠ a := fun x => e x.symm
      simp [e, e']

theorem on_sends {net : List Hop} (hn : net.Nodup) {e : Ends} {v : Nat} {b b' : Bus.St} {d : Delivery} (hd : b'.log = b.log ++ [d]) (h : Hop) (hh : h ∈ net) :
    on h (sends net e v b b') = if h.src = v ∧ d.sub = e.sub h ∧ Net.echo h.out d.msg = false then [(h, d.msg)] else [] := by
  simp only [sends, hd, List.drop_left, List.flatMap_cons, List.flatMap_nil, List.append_nil, on]
  rw [List.filter_map]
  have : ((fun x : Hop × BMsg => decide (x.1 = h)) ∘ fun h => (h, d.msg)) = fun g => decide (g = h) := rfl
  rw [this, pick_one (l := (Net.leaving net v).filter _) (by
    unfold Net.leaving; exact (hn.sublist List.filter_sublist).sublist List.filter_sublist)]
  by_cases hc : h.src = v ∧ d.sub = e.sub h ∧ Net.echo h.out d.msg = false
  · rw [if_pos hc, if_pos]
    · rfl
    · simp [Net.leaving, hh, hc.1, hc.2.1, hc.2.2]
  · rw [if_neg hc, if_neg]
    · rfl
    · simp only [List.mem_filter, Net.leaving, Bool.and_eq_true, beq_iff_eq, Bool.not_eq_true', decide_eq_true_eq]
      rintro ⟨⟨_, h1⟩, h2, h3⟩
      exact hc ⟨h1, h2.symm, h3⟩

theorem sent_same {e : Ends} {σ τ : St} {h : Hop} (hl : (τ.host h.src).log = (σ.host h.src).log) : sent e τ h = sent e σ h := by
  rw [sent, sent, heard, heard, hl]

theorem arrivals_same {σ τ : St} {h : Hop} (hl : (τ.host h.dst).published = (σ.host h.dst).published) : arrivals τ h = arrivals σ h := by
  rw [arrivals, arrivals, hl]

theorem sent_snoc {e : Ends} {σ τ : St} {h : Hop} {d : Delivery} (hl : (τ.host h.src).log = (σ.host h.src).log ++ [d]) :
    sent e τ h = sent e σ h ++ if d.sub = e.sub h ∧ Net.echo h.out d.msg = false then [d.msg] else [] := by
  rw [sent, sent, heard, heard, hl, List.filter_append, List.map_append, List.filter_append]
  congr 1
  by_cases h1 : d.sub = e.sub h <;> by_cases h2 : Net.echo h.out d.msg = true <;> simp [h1, h2]

/-- Every event keeps a connection in order. -/
theorem line_step {ns : List Nat} {net : List Hop} {e : Ends} (hw : Wired ns net) {σ σ' : St} {ν : Net.St} {a : Act}
    (hm : Mirror net e σ ν) (hin : Inside net σ) (ho : Ordered σ a) (hp : Proper net σ') (hs : step net e σ a = some σ') {h : Hop} (hh : h ∈ net)
    (hl : Line e σ h) : Line e σ' h := by
  cases a with
  | act v a =>
    cases hb : Bus.step (σ.host v) a with
    | none => simp [step, hb] at hs
    | some b =>
      have hi := (hm.reach v).inv
      simp only [step, hb, Option.some.injEq] at hs
      have e1 : σ'.host = put σ.host v b := by rw [← hs]
      have e2 : σ'.way = σ.way ++ sends net e v (σ.host v) b := by rw [← hs]
      have e3 : σ'.calls = put σ.calls v (callsAfter (σ.host v) b (σ.calls v) a) := by rw [← hs]
      have e4 : σ'.lost = σ.lost := by rw [← hs]
      have e5 : σ'.injected = σ.injected ++ injects v (σ.host v) (σ.calls v) a := by rw [← hs]
      have hca : (∀ i, a ≠ .push i) → flying σ' h = flying σ h := by
        intro hp
        have : callsAfter (σ.host v) b (σ.calls v) a =
            σ.calls v ++ List.replicate (b.inflight.length - (σ.host v).inflight.length) none := by
          cases a <;> first | rfl | exact absurd rfl (hp _)
        rw [flying, e3, this, filterMap_put, filterMap_none]
        rw [show on h ([] : List (Hop × BMsg)) = [] from rfl, ite_self, List.append_nil]
      rcases kinds hi hb with ⟨i, m, rfl, h0, h3, h1, h2⟩ | ⟨hnp, h1, h2, ms, h3⟩ | ⟨hnp, h1, h3, d, h2⟩
      · -- a message is appended
        have hway : on h σ'.way = on h σ.way := by rw [e2]; simp [sends, h2]
        have hsent : sent e σ' h = sent e σ h := sent_same (by rw [e1, put_log h2])
        have hlost : on h σ'.lost = on h σ.lost := by rw [e4]
        have hfl : ∀ {w : Nat}, h.dst = w → w ≠ v → flying σ' h = flying σ h := by
          intro w hw hne
          rw [flying, flying, hw, e3, put_other _ _ hne]
        by_cases hv : h.dst = v
        · have hpub : (σ'.host h.dst).published = (σ.host h.dst).published ++ [m] := by rw [e1, hv, put_same, h1]
          have harr : arrivals σ' h = arrivals σ h ++ if Net.echo h.inn m = true then [m] else [] := by
            rw [arrivals, arrivals, hpub, List.filter_append]
            congr 1
            by_cases hx : Net.echo h.inn m = true <;> simp [hx]
          have hlen : i < (σ.calls v).length := by
            rw [hm.callsLen]; exact (List.getElem?_eq_some_iff.mp h0).1
          obtain ⟨c, hc⟩ : ∃ c, (σ.calls v)[i]? = some c := ⟨_, List.getElem?_eq_getElem hlen⟩
          obtain ⟨k1, k2⟩ := cut hc
          have hfl' : flying σ' h = on h (((σ.calls v).take i).filterMap id) ++ on h (((σ.calls v).drop (i + 1)).filterMap id) := by
            rw [flying, hv, e3, put_same]
            simp only [callsAfter]
            rw [k2, List.filterMap_append, on_append]
          have hfl0 : flying σ h = on h (((σ.calls v).take i).filterMap id) ++ (on h ([c].filterMap id) ++
              on h (((σ.calls v).drop (i + 1)).filterMap id)) := by
            have : σ.calls v = (σ.calls v).take i ++ ([c] ++ (σ.calls v).drop (i + 1)) := by simpa using k1
            rw [flying, hv]
            conv_lhs => rw [this]
            rw [List.filterMap_append, List.filterMap_append, on_append, on_append]
          cases c with
          | none =>
            have hinj : (v, m) ∈ σ'.injected := by rw [e5]; simp [injects, h0, hc]
            have hx : Net.echo h.inn m = false := by
              rw [Bool.eq_false_iff]
              intro hx
              exact hp (v, m) hinj h.back (hw.back h hh) hv ((Net.echo_iff _ _).mp hx)
            rw [hx] at harr
            refine line_same hl hsent (by simpa using harr) ?_ hway hlost
            rw [hfl', hfl0]; rfl
          | some x =>
            obtain ⟨g, n⟩ := x
            obtain ⟨hgv, hgm⟩ := hm.callsOf v i g n hc
            rw [h0, Option.some.injEq] at hgm
            have hg : g ∈ net := hin.2 v (g, n) (List.mem_of_getElem? hc)
            by_cases hgh : g = h
            · subst hgh
              have hone : on g ([some (g, n)].filterMap id) = [(g, n)] := by simp [on]
              rw [hone] at hfl0
              have hfew := hl.few
              rw [hfl0] at hfew
              simp only [List.length_append, List.length_cons, List.length_nil] at hfew
              have a1 : on g (((σ.calls v).take i).filterMap id) = [] := List.length_eq_zero_iff.mp (by omega)
              have a2 : on g (((σ.calls v).drop (i + 1)).filterMap id) = [] := List.length_eq_zero_iff.mp (by omega)
              rw [a1, a2] at hfl' hfl0
              have hx : Net.echo g.inn m = true := by
                rw [Net.echo_iff, hgm]; exact ⟨n.sender, by simp [Net.arrive, bs, slash]⟩
              rw [if_pos hx] at harr
              refine ⟨by rw [hfl']; simp, ?_, ?_⟩
              · have := hl.sub
                simp only [between, hfl0, List.append_nil, List.nil_append, List.map_append, List.map_cons, List.map_nil] at this
                simp only [between, hfl', hway, hsent, harr, List.append_nil, List.nil_append]
                rw [hgm, List.append_assoc]; exact this
              · have := hl.count
                rw [hfl0] at this
                rw [hsent, harr, hfl', hway, hlost, this]
                simp only [List.length_append, List.length_cons, List.length_nil]
            · have hone : on h ([some (g, n)].filterMap id) = [] := by simp [on, hgh]
              rw [hone, List.nil_append] at hfl0
              have hx : Net.echo h.inn m = false := by
                rw [Bool.eq_false_iff]
                intro hx
                rw [Net.echo_iff, hgm] at hx
                have hx : Link.FromLink h.inn (g.inn ++ [slash] ++ n.sender) := by simpa [Net.arrive, bs, slash] using hx
                have q1 : slash ∉ h.inn := hw.names h.back (hw.back h hh)
                have q2 : slash ∉ g.inn := hw.names g.back (hw.back g hg)
                rw [Net.fromLink_arrived q1 q2] at hx
                have := hw.one h.back (hw.back h hh) g.back (hw.back g hg) (by simp [Hop.back, hv, hgv]) hx
                apply hgh
                simp only [Hop.back, Hop.mk.injEq] at this
                obtain ⟨p1, p2, p3, p4⟩ := this
                cases g; cases h
                simp only [Hop.mk.injEq]
                exact ⟨p3.symm, p4.symm, p1.symm, p2.symm⟩
              rw [hx] at harr
              refine line_same hl hsent (by simpa using harr) ?_ hway hlost
              rw [hfl', hfl0]
        · refine line_same hl hsent (arrivals_same ?_) (hfl rfl hv) hway hlost
          rw [e1, put_other _ _ hv]
      · refine line_same hl (sent_same (by rw [e1, put_log h2])) (arrivals_same (by rw [e1, put_published h1])) (hca hnp) ?_ (by rw [e4])
        rw [e2]; simp [sends, h2]
      · have hfl := hca hnp
        have harr : arrivals σ' h = arrivals σ h := arrivals_same (by rw [e1, put_published h1])
        have hway : on h σ'.way = on h σ.way ++ if h.src = v ∧ d.sub = e.sub h ∧ Net.echo h.out d.msg = false then [(h, d.msg)] else [] := by
          rw [e2, on_append, on_sends hw.once h2 h hh]
        have hlost : on h σ'.lost = on h σ.lost := by rw [e4]
        by_cases hv : h.src = v
        · have hsent := sent_snoc (e := e) (σ := σ) (τ := σ') (h := h) (d := d) (by rw [e1, hv, put_same, h2])
          by_cases hc : d.sub = e.sub h ∧ Net.echo h.out d.msg = false
          · rw [if_pos hc] at hsent
            rw [if_pos ⟨hv, hc⟩] at hway
            refine ⟨by rw [hfl]; exact hl.few, ?_, ?_⟩
            · have hbe : between σ' h = between σ h ++ [Net.arrive h d.msg] := by
                rw [between, between, hfl, hway, ← List.append_assoc, List.map_append]; rfl
              rw [hbe, hsent, harr, ← List.append_assoc, List.map_append]
              exact hl.sub.append (.refl _)
            · rw [hsent, harr, hfl, hway, hlost, List.length_append, List.length_append, hl.count]
              simp; omega
          · rw [if_neg hc, List.append_nil] at hsent
            rw [if_neg (fun x => hc x.2), List.append_nil] at hway
            exact line_same hl hsent harr hfl hway hlost
        · rw [if_neg (fun x => hv x.1), List.append_nil] at hway
          exact line_same hl (sent_same (by rw [e1, put_other _ _ hv])) harr hfl hway hlost
  | receive k =>
    simp only [step] at hs
    cases hk : σ.way[k]? with
    | none => simp [hk] at hs
    | some x =>
      obtain ⟨g, m⟩ := x
      simp only [hk] at hs
      cases hb : Bus.step (σ.host g.dst) (.publish (e.bus g) (Net.arrive g m)) with
      | none => simp [hb] at hs
      | some b =>
        simp only [hb, Option.some.injEq] at hs
        obtain ⟨h1, h2⟩ : b.published = (σ.host g.dst).published ∧ b.log = (σ.host g.dst).log := by
          have hb' := hb
          simp only [Bus.step] at hb'
          split at hb' <;> cases hb'
          exact ⟨rfl, rfl⟩
        obtain ⟨o1, o2⟩ := ho (g, m) hk
        have e1 : σ'.host = put σ.host g.dst b := by rw [← hs]
        have e2 : σ'.way = σ.way.eraseIdx k := by rw [← hs]
        have e3 : σ'.calls = put σ.calls g.dst (σ.calls g.dst ++
          (if (σ.host g.dst).inflight.length < b.inflight.length then [some (g, m)] else [])) := by rw [← hs]
        have e4 : σ'.lost = σ.lost ++ (if (σ.host g.dst).inflight.length < b.inflight.length then [] else [(g, m)]) := by rw [← hs]
        have hsent : sent e σ' h = sent e σ h := sent_same (by rw [e1, put_log h2])
        have harr : arrivals σ' h = arrivals σ h := arrivals_same (by rw [e1, put_published h1])
        obtain ⟨k1, k2⟩ := cut hk
        have hway0 : on h σ.way = on h (σ.way.take k) ++ (on h [(g, m)] ++ on h (σ.way.drop (k + 1))) := by
          have : σ.way = σ.way.take k ++ ([(g, m)] ++ σ.way.drop (k + 1)) := by simpa using k1
          conv_lhs => rw [this]
          rw [on_append, on_append]
        have hway1 : on h σ'.way = on h (σ.way.take k) ++ on h (σ.way.drop (k + 1)) := by
          rw [e2, k2, on_append]
        by_cases hgh : g = h
        · subst hgh
          have a1 : on g (σ.way.take k) = [] := by
            rw [on, List.filter_eq_nil_iff]
            intro y hy
            obtain ⟨j, hj, rfl⟩ := List.mem_iff_getElem.mp hy
            simp only [List.length_take] at hj
            rw [List.getElem_take]
            have := o1 j _ (by omega) (List.getElem?_eq_getElem (by omega))
            simpa using this
          have a2 : flying σ g = [] := by
            rw [flying, on, List.filter_eq_nil_iff]
            intro y hy
            simp only [List.mem_filterMap, id] at hy
            obtain ⟨z, hz, rfl⟩ := hy
            have := o2 y hz
            simp only [decide_eq_true_eq]
            intro ey
            rw [ey] at this
            exact this rfl
          have a3 : on g [(g, m)] = [(g, m)] := by simp [on]
          rw [a1, a3, List.nil_append] at hway0
          rw [a1, List.nil_append] at hway1
          by_cases hlt : (σ.host g.dst).inflight.length < b.inflight.length
          · rw [if_pos hlt] at e3 e4
            have hfl : flying σ' g = [(g, m)] := by
              rw [flying, e3, filterMap_put, a2, if_pos rfl, List.nil_append]
              exact a3
            refine ⟨by rw [hfl]; simp, ?_, ?_⟩
            · have := hl.sub
              simp only [between, a2, hway0, List.nil_append] at this
              simp only [between, hfl, hway1, hsent, harr]
              exact this
            · have := hl.count
              rw [a2, hway0] at this
              rw [hsent, harr, hfl, hway1, e4, List.append_nil, this]
              simp; omega
          · rw [if_neg hlt] at e3 e4
            have hfl : flying σ' g = [] := by
              rw [flying, e3, filterMap_put, a2, if_pos rfl]; rfl
            refine ⟨by rw [hfl]; simp, ?_, ?_⟩
            · have := hl.sub
              simp only [between, a2, hway0, List.nil_append] at this
              simp only [between, hfl, hway1, hsent, harr, List.nil_append]
              refine List.Sublist.trans ?_ this
              refine (List.Sublist.refl _).append ?_
              exact (List.sublist_append_right _ _).map _
            · have := hl.count
              rw [a2, hway0] at this
              rw [hsent, harr, hfl, hway1, e4, on_append, a3, this]
              simp; omega
        · have a3 : on h [(g, m)] = [] := by simp [on, hgh]
          rw [a3, List.nil_append] at hway0
          refine line_same hl hsent harr ?_ (by rw [hway1, hway0]) ?_
          · rw [flying, e3, filterMap_put]
            split
            · split
              · rw [show on h ([some (g, m)].filterMap id) = on h [(g, m)] from rfl, a3, List.append_nil]
              · exact List.append_nil _
            · exact List.append_nil _
          · rw [e4, on_append]
            split
            · exact List.append_nil _
            · rw [a3, List.append_nil]

theorem injected_step {net : List Hop} {e : Ends} {σ σ' : St} {a : Act} (h : step net e σ a = some σ') : ∀ x ∈ σ.injected, x ∈ σ'.injected := by
  intro x hx
  cases a with
  | act v a =>
    simp only [step] at h
    split at h <;> cases h
    exact List.mem_append_left _ hx
  | receive k =>
    simp only [step] at h
    split at h <;> try cases h
    split at h <;> cases h
    exact hx

theorem injected_exec {net : List Hop} {e : Ends} : ∀ {as : List Act} {σ σ' : St}, exec net e σ as = some σ' → ∀ x ∈ σ.injected, x ∈ σ'.injected
  | [], _, _, h, x, hx => by cases h; exact hx
  | _ :: _, _, _, h, x, hx => by
    obtain ⟨τ, h1, h2⟩ := exec_cons h
    exact injected_exec h2 x (injected_step h1 x hx)

theorem native_iff {net : List Hop} {o : Nat} {s : Str} : native net o s = true ↔ ∀ h ∈ net, h.src = o → ¬ Link.FromLink h.out s := by
  rw [native, List.all_eq_true]
  refine forall_congr' (fun h => forall_congr' (fun hh => ?_))
  have : (h.out ++ [slash]).isPrefixOf s = true ↔ Link.FromLink h.out s := by
    rw [List.isPrefixOf_iff_prefix]
    exact ⟨fun ⟨t, h⟩ => ⟨t, h.symm⟩, fun ⟨t, h⟩ => ⟨t, h.symm⟩⟩
  rw [← this]
  by_cases h1 : h.src = o <;> simp [h1, -List.isPrefixOf_iff_prefix]

/-- What was published by anything but a link is what does not look as if it came through one. -/
def Own (net : List Hop) (σ : St) : Prop := ∀ u, own σ u = (σ.host u).published.filter (fun m => native net u m.sender)

theorem arrive_sender (h : Hop) (m : BMsg) : (Net.arrive h m).sender = h.inn ++ [slash] ++ m.sender := by
  simp [Net.arrive, bs, slash]

theorem own_step {ns : List Nat} {net : List Hop} {e : Ends} (hw : Wired ns net) {σ σ' : St} {ν : Net.St} {a : Act}
    (hm : Mirror net e σ ν) (hin : Inside net σ) (hp : Proper net σ') (hs : step net e σ a = some σ') (ho : Own net σ) : Own net σ' := by
  intro u
  cases a with
  | act v a =>
    cases hb : Bus.step (σ.host v) a with
    | none => simp [step, hb] at hs
    | some b =>
      have hi := (hm.reach v).inv
      simp only [step, hb, Option.some.injEq] at hs
      have e1 : σ'.host = put σ.host v b := by rw [← hs]
      have e5 : σ'.injected = σ.injected ++ injects v (σ.host v) (σ.calls v) a := by rw [← hs]
      have quiet : (∀ i, a ≠ .push i) → b.published = (σ.host v).published → own σ' u = (σ'.host u).published.filter (fun m => native net u m.sender) := by
        intro hnp h1
        have : injects v (σ.host v) (σ.calls v) a = [] := by cases a <;> first | rfl | exact absurd rfl (hnp _)
        rw [own, e5, this, List.append_nil, e1, put_published h1]
        exact ho u
      rcases kinds hi hb with ⟨i, m, rfl, h0, h3, h1, h2⟩ | ⟨hnp, h1, h2, ms, h3⟩ | ⟨hnp, h1, h3, d, h2⟩
      · have hlen : i < (σ.calls v).length := by
          rw [hm.callsLen]; exact (List.getElem?_eq_some_iff.mp h0).1
        obtain ⟨c, hc⟩ : ∃ c, (σ.calls v)[i]? = some c := ⟨_, List.getElem?_eq_getElem hlen⟩
        have hpub : (σ'.host u).published = (σ.host u).published ++ if u = v then [m] else [] := by
          by_cases hu : u = v
          · subst hu; rw [e1, put_same, h1, if_pos rfl]
          · rw [e1, put_other _ _ hu, if_neg hu, List.append_nil]
        have hown : own σ' u = own σ u ++ if v = u ∧ c = none then [m] else [] := by
          rw [own, own, e5, List.filter_append, List.map_append]
          congr 1
          cases c with
          | none =>
            have : injects v (σ.host v) (σ.calls v) (.push i) = [(v, m)] := by simp [injects, h0, hc]
            rw [this]
            by_cases hu : v = u <;> simp [hu]
          | some x => simp [injects, h0, hc]
        rw [hown, hpub, List.filter_append, ← ho u]
        congr 1
        by_cases hu : u = v
        · subst hu
          rw [if_pos rfl]
          cases c with
          | none =>
            have hinj : (u, m) ∈ σ'.injected := by rw [e5]; simp [injects, h0, hc]
            have : native net u m.sender = true := native_iff.mpr (fun h hh hu => hp (u, m) hinj h hh hu)
            simp [this]
          | some x =>
            obtain ⟨g, n⟩ := x
            obtain ⟨hgv, hgm⟩ := hm.callsOf u i g n hc
            rw [h0, Option.some.injEq] at hgm
            have hg : g ∈ net := hin.2 u (g, n) (List.mem_of_getElem? hc)
            have : native net u m.sender = false := by
              rw [Bool.eq_false_iff]
              intro hx
              exact native_iff.mp hx g.back (hw.back g hg) hgv (by rw [hgm, arrive_sender]; exact ⟨n.sender, rfl⟩)
            simp [this]
        · have hu' : ¬ v = u := fun x => hu x.symm
          simp [hu, hu']
      · exact quiet hnp h1
      · exact quiet hnp h1
  | receive k =>
    simp only [step] at hs
    cases hk : σ.way[k]? with
    | none => simp [hk] at hs
    | some x =>
      obtain ⟨g, m⟩ := x
      simp only [hk] at hs
      cases hb : Bus.step (σ.host g.dst) (.publish (e.bus g) (Net.arrive g m)) with
      | none => simp [hb] at hs
      | some b =>
        simp only [hb, Option.some.injEq] at hs
        have h1 : b.published = (σ.host g.dst).published := by
          simp only [Bus.step] at hb
          split at hb <;> cases hb
          rfl
        have e1 : σ'.host = put σ.host g.dst b := by rw [← hs]
        have e5 : σ'.injected = σ.injected := by rw [← hs]
        rw [own, e5, e1, put_published h1]
        exact ho u

/-- Everything kept along an execution. -/
structure Kept (net : List Hop) (e : Ends) (σ : St) : Prop where
  mirror : ∃ ν, Mirror net e σ ν
  inside : Inside net σ
  line : ∀ h ∈ net, Line e σ h
  own : Own net σ

theorem kept_silent {net : List Hop} {e : Ends} {σ : St} (h : Silent σ) : Kept net e σ := by
  have hlog : ∀ v, (σ.host v).log = [] := by
    intro v
    have hi := (h.reach v).inv
    cases hl : (σ.host v).log with
    | nil => rfl
    | cons d t =>
      have := (hi.log d (by rw [hl]; simp)).2.2.1
      rw [h.published] at this
      simp at this
  refine ⟨⟨_, mirror_silent net e h⟩, inside_silent h, fun g _ => ?_, fun u => ?_⟩
  · have h1 : sent e σ g = [] := by rw [sent, heard, hlog]; rfl
    have h2 : arrivals σ g = [] := by rw [arrivals, h.published]; rfl
    have h3 : flying σ g = [] := by rw [flying, h.calls]; rfl
    have h4 : on g σ.way = [] := by rw [h.way]; rfl
    have h5 : on g σ.lost = [] := by rw [h.lost]; rfl
    refine ⟨by rw [h3]; simp, ?_, by rw [h1, h2, h3, h4, h5]; rfl⟩
    rw [between, h1, h2, h3, h4]; exact .slnil
  · rw [LP.Grid.own, h.injected, h.published]; rfl

theorem kept_exec {ns : List Nat} {net : List Hop} {e : Ends} (hw : Wired ns net) : ∀ {as : List Act} {σ σ' : St}, exec net e σ as = some σ' →
    InOrder net e σ as → Proper net σ' → Kept net e σ → Kept net e σ'
  | [], _, _, h, _, _, hk => by cases h; exact hk
  | _ :: _, _, _, h, ho, hp, hk => by
    obtain ⟨τ, h1, h2⟩ := exec_cons h
    have hp' : Proper net τ := fun x hx => hp x (injected_exec h2 x hx)
    obtain ⟨ν, hm⟩ := hk.mirror
    obtain ⟨_, ν', _, hm'⟩ := mirror_step hw.once hm h1
    exact kept_exec hw h2 (ho.2 τ h1) hp ⟨⟨ν', hm'⟩, inside_step h1 hk.inside, fun h hh => line_step hw hm hk.inside ho.1 hp' h1 hh (hk.line h hh),
      own_step hw hm hk.inside hp' h1 hk.own⟩

end LP.Grid
