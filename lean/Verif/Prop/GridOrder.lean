import Verif.Lemma.GridCause
import Verif.Prop.GridSettle
/-!
# Properties of the order of messages in networks of hosts
-/
namespace LP.Grid
open LP.Bus (BMsg Delivery TopicRule)
open LP.Net (Hop Wired Route stop after)

/-- Whatever the threads of all the hosts do: of the messages one host publishes, those that have made a certain journey are, at its
end, published and heard by every subscriber in the order in which they were published. -/
theorem C127_order_kept {ns : List Nat} {net : List Hop} (hw : Wired ns net) (e : Ends) {σ₀ σ : St} {as : List Act} (hsi : Silent σ₀)
    (he : exec net e σ₀ as = some σ) (ho : InOrder net e σ₀ as) (hp : Proper net σ) (o : Nat) (r : List Hop) (hr : Route net o r) :
    ((σ.host (stop o r)).published.filter (madeJourney net o r)).Sublist ((own σ o).map (fun m => after m r)) ∧
    ∀ s, ((heard σ (stop o r) s).filter (madeJourney net o r)).Sublist
      (((own σ o).map (fun m => after m r)).filter (fun m => decide (TopicRule ((σ.host (stop o r)).w.sub s).topic m.topic))) := by
  have hk := kept_exec hw he ho hp (kept_silent hsi)
  have h1 := along fit_sublist hw (fun h hh => arrivals_sublist hk hh) hk.own hr
  obtain ⟨ν, hm⟩ := hk.mirror
  refine ⟨h1, fun s => ?_⟩
  have h2 := (heard_sublist (hm.reach (stop o r)) s).filter (madeJourney net o r)
  rw [filter_swap] at h2
  exact h2.trans (h1.filter _)

/-- With the links in operation and no callback throwing there are no gaps: they are the first of the messages the host published; a
subscriber served all the time has heard the first of those of its topic; and once nothing is left to do, all of them. -/
theorem C127_no_gaps {ns : List Nat} {net : List Hop} (hw : Wired ns net) (e : Ends) {σ₀ σ : St} {as : List Act} (hsi : Silent σ₀)
    (he : exec net e σ₀ as = some σ) (ho : InOrder net e σ₀ as) (hp : Proper net σ) (hu : Throughout net e (Up net e) σ₀ as)
    (hc : ∀ v, .act v (.run .throwing) ∉ as) (o : Nat) (r : List Hop) (hr : Route net o r) :
    (σ.host (stop o r)).published.filter (madeJourney net o r) <+: (own σ o).map (fun m => after m r) ∧
    ∀ s, s < (σ₀.host (stop o r)).w.ns → Throughout net e (fun τ => Bus.Live (τ.host (stop o r)).w s) σ₀ as →
      let wanted := ((own σ o).map (fun m => after m r)).filter (fun m => decide (TopicRule ((σ.host (stop o r)).w.sub s).topic m.topic))
      (heard σ (stop o r) s).filter (madeJourney net o r) <+: wanted ∧
      (Settled ns σ → stop o r ∈ ns → (heard σ (stop o r) s).filter (madeJourney net o r) = wanted) := by
  have hk := kept_exec hw he ho hp (kept_silent hsi)
  have h1 := along fit_prefix hw (fun h hh => arrivals_prefix hsi he hu hc hk hh) hk.own hr
  refine ⟨h1, fun s hs hl => ⟨?_, fun hset hv => ?_⟩⟩
  · have h2 := (heard_prefix hsi he hs hl hc).filter (madeJourney net o r)
    rw [filter_swap] at h2
    exact h2.trans (h1.filter _)
  · have h3 := along fit_eq hw (fun h hh => arrivals_all hsi he hu hc hk hset (wired_inside hw) hh) hk.own hr
    obtain ⟨l, f1, f2, f3⟩ := project he (stop o r)
    have h5 := heard_all (hsi.reach _) (hsi.published _) hs (f3 (fun b => Bus.Live b.w s) hl) (fun h => hc _ (f2 h)) f1 (hset.1 _ hv).1
    obtain ⟨ν, hm⟩ := hk.mirror
    rw [heard, heard_pick (hm.reach _).inv, h5, pick_due, filter_swap, h3]

/-- Causes precede effects everywhere: if, when host `o` published a message, it had already published so many of the messages of host
`u` that came to it on the journey `q`, then every host that publishes a copy of the message after the journey `r` has already published
at least as many of them, in their order, come to it on the journey `q` continued by `r`. -/
theorem C127_causes_first {ns : List Nat} {net : List Hop} (hw : Wired ns net) (e : Ends) {σ₀ σ : St} {as : List Act} (hsi : Silent σ₀)
    (he : exec net e σ₀ as = some σ) (ho : InOrder net e σ₀ as) (hp : Proper net σ) (hu : Throughout net e (Up net e) σ₀ as)
    (hc : ∀ v, .act v (.run .throwing) ∉ as) (o : Nat) (r : List Hop) (hr : Route net o r) {X X' : List BMsg} {b' : BMsg}
    (hx : (σ.host (stop o r)).published = X ++ b' :: X') (hj : madeJourney net o r b' = true) :
    ∃ W b W', (σ.host o).published = W ++ b :: W' ∧ b ∈ own σ o ∧ b' = after b r ∧ ∀ u q, Route net u q → stop u q = o →
      ∃ k, W.filter (madeJourney net u q) = ((own σ u).map (fun m => after m q)).take k ∧
        k ≤ (own σ u).length ∧
        ((own σ u).map (fun m => after m (onwards r q))).take k <+: X.filter (madeJourney net u (onwards r q)) := by
  have hk := kept_exec hw he ho hp (kept_silent hsi)
  obtain ⟨W, b, W', k1, k2, k3, k4⟩ := causes hw (past_exec hw hsi as he ho hp hu hc) hr hx hj
  refine ⟨W, b, W', k1, ?_, k2, fun u q hq hs => ?_⟩
  · rw [hk.own o, k1]
    simp [k3]
  · have pre : ∀ q, Route net u q → ∀ (A : List BMsg), A <+: (σ.host (stop u q)).published →
        A.filter (madeJourney net u q) = ((own σ u).map (fun m => after m q)).take (tally net u q A) := by
      intro q hq A hA
      have h1 := along fit_prefix hw (fun h hh => arrivals_prefix hsi he hu hc hk hh) hk.own hq
      exact List.prefix_iff_eq_take.mp ((hA.filter _).trans h1)
    have hle : ∀ q, Route net u q → ∀ (A : List BMsg), A <+: (σ.host (stop u q)).published → tally net u q A ≤ (own σ u).length := by
      intro q hq A hA
      have h1 := along fit_prefix hw (fun h hh => arrivals_prefix hsi he hu hc hk hh) hk.own hq
      have := ((hA.filter (madeJourney net u q)).trans h1).length_le
      rwa [List.length_map] at this
    obtain ⟨r1, r2⟩ := route_onwards hw hq hs hr
    have hW : W <+: (σ.host (stop u q)).published := ⟨b :: W', by rw [hs, k1]⟩
    have hX : X <+: (σ.host (stop u (onwards r q))).published := ⟨b' :: X', by rw [r2, hx]⟩
    refine ⟨tally net u q W, pre q hq W hW, hle q hq W hW, ?_⟩
    rw [pre _ r1 X hX]
    exact List.take_prefix_take_left (k4 u q hq hs)

namespace Ex

/-- A message. -/
def say (s : String) : BMsg := ⟨bs s, bs "t", .empty⟩

/-- A client of a host publishes, and its bus thread works. -/
def tell (v : Nat) (s : String) : List Act := [.act v (.publish 3 (say s)), .act v (.push 0)] ++ thread v 60

/-- A host receives, and its bus thread works. -/
def take (v k : Nat) : List Act := [.receive k, .act v (.push 0)] ++ thread v 60

/-- Three hosts in a row: host 0 publishes twice, host 1 publishes after having received the first of the two messages. -/
def talk : List Act := tell 0 "a" ++ take 1 0 ++ tell 0 "b" ++ tell 1 "c" ++ take 1 1 ++ take 0 1 ++ take 2 0 ++ take 2 0 ++ take 2 0

/-- Check that a link receives in order. -/
def ordered (σ : St) : Act → Bool
  | .receive k => match σ.way[k]? with
    | none => true
    | some x => (σ.way.take k).all (fun y => decide (y.1 ≠ x.1)) &&
      (σ.calls x.1.dst).all (fun c => match c with | some y => decide (y.1.inn ≠ x.1.inn) | none => true)
  | .act _ _ => true

theorem ordered_sound {σ : St} {a : Act} (h : ordered σ a = true) : Ordered σ a := by
  cases a with
  | act v a => trivial
  | receive k =>
    intro x hx
    simp only [ordered, hx, Bool.and_eq_true, List.all_eq_true, decide_eq_true_eq] at h
    refine ⟨fun j y hj hy => h.1 y ?_, fun y hy => by simpa using h.2 _ hy⟩
    exact List.mem_of_getElem? (i := j) (by rw [List.getElem?_take, if_pos hj, hy])

/-- Check it along an execution. -/
def inOrder (net : List Hop) : St → List Act → Bool
  | _, [] => true
  | σ, a :: as => ordered σ a && match step net ends σ a with
    | some σ' => inOrder net σ' as
    | none => true

theorem inOrder_sound {net : List Hop} : ∀ {as : List Act} {σ : St}, inOrder net σ as = true → InOrder net ends σ as
  | [], _, _ => trivial
  | a :: as, σ, h => by
    simp only [inOrder, Bool.and_eq_true] at h
    refine ⟨ordered_sound h.1, fun τ hτ => ?_⟩
    have := h.2
    rw [hτ] at this
    exact inOrder_sound this

/-- The senders of the messages heard by the client of a host. -/
def senders (σ : St) (v : Nat) : List Str := (heard σ v 2).map BMsg.sender

theorem talk_runs : ∃ σ₀ σ, Silent σ₀ ∧ exec Net.Ex.row ends σ₀ talk = some σ ∧ InOrder Net.Ex.row ends σ₀ talk ∧ Proper Net.Ex.row σ ∧
    Throughout Net.Ex.row ends (Up Net.Ex.row ends) σ₀ talk ∧ (∀ v, .act v (.run .throwing) ∉ talk) ∧ Settled [0, 1, 2] σ ∧
    2 < (σ₀.host 2).w.ns ∧ Throughout Net.Ex.row ends (fun τ => Bus.Live (τ.host 2).w 2) σ₀ talk ∧
    (own σ 0).map BMsg.sender = [bs "a", bs "b"] ∧ (own σ 1).map BMsg.sender = [bs "c"] ∧
    senders σ 0 = [bs "a", bs "b", bs "Link0/c"] ∧ senders σ 1 = [bs "Link0/a", bs "c", bs "Link0/b"] ∧
    (σ.host 2).published.map BMsg.sender = [bs "Link0/Link0/a", bs "Link0/c", bs "Link0/Link0/b"] := by
  obtain ⟨b, hb, h⟩ := run_of (f := fun b => fresh b && (inOrder Net.Ex.row (hosts b) talk && watch Net.Ex.row (served Net.Ex.row) (fun σ =>
    atRest σ && (honest Net.Ex.row σ && ((own σ 0).map BMsg.sender == [bs "a", bs "b"] && ((own σ 1).map BMsg.sender == [bs "c"] &&
    (senders σ 0 == [bs "a", bs "b", bs "Link0/c"] && (senders σ 1 == [bs "Link0/a", bs "c", bs "Link0/b"] &&
    (σ.host 2).published.map BMsg.sender == [bs "Link0/Link0/a", bs "Link0/c", bs "Link0/Link0/b"])))))) (hosts b) talk)) (by decide +kernel)
  simp only [Bool.and_eq_true] at h
  obtain ⟨h1, h2⟩ := fresh_sound hb h.1
  obtain ⟨h3, σ, h4, h5⟩ := watch_sound (fun _ => served_sound) h.2.2
  simp only [Bool.and_eq_true, beq_iff_eq] at h5
  obtain ⟨h5, h6, h7, h8, h9, h10, h11⟩ := h5
  exact ⟨_, σ, h1, h4, inOrder_sound h.2.1, (honest_sound h6).1, throughout_imp (fun _ h => h.1) h3, never_throws (by decide +kernel), atRest_sound h5, h2,
    throughout_imp (fun _ h => h.2) h3, h7, h8, h9, h10, h11⟩

/-- The way from host 0 to host 2. -/
def far : List Hop := [⟨1, bs "Link1", 2, bs "Link0"⟩, ⟨0, bs "Link0", 1, bs "Link0"⟩]

/-- From host 1 to host 2. -/
def near : List Hop := [⟨1, bs "Link1", 2, bs "Link0"⟩]

theorem far_route : Route Net.Ex.row 0 far := ⟨by decide, rfl, by decide, by decide, rfl, by simp, trivial⟩
theorem near_route : Route Net.Ex.row 1 near := ⟨by decide, rfl, by simp, trivial⟩

end Ex

-- The hypotheses of all three theorems: the journey from host 0 to host 2. The second message of host 2 is a copy of the one host 1 published
-- when it had already published the first one of host 0.
example : ∃ σ₀ σ, Silent σ₀ ∧ exec Net.Ex.row Ex.ends σ₀ Ex.talk = some σ ∧ InOrder Net.Ex.row Ex.ends σ₀ Ex.talk ∧ Proper Net.Ex.row σ ∧
    Throughout Net.Ex.row Ex.ends (Up Net.Ex.row Ex.ends) σ₀ Ex.talk ∧ (∀ v, .act v (.run .throwing) ∉ Ex.talk) ∧
    Route Net.Ex.row 0 Ex.far ∧ 2 < (σ₀.host (stop 0 Ex.far)).w.ns ∧
    Throughout Net.Ex.row Ex.ends (fun τ => Bus.Live (τ.host (stop 0 Ex.far)).w 2) σ₀ Ex.talk ∧ Settled [0, 1, 2] σ ∧ stop 0 Ex.far ∈ [0, 1, 2] ∧
    (own σ 0).length = 2 ∧
    Route Net.Ex.row 1 Ex.near ∧ ∃ X b' X', (σ.host (stop 1 Ex.near)).published = X ++ b' :: X' ∧ madeJourney Net.Ex.row 1 Ex.near b' = true ∧ X.length = 1 := by
  obtain ⟨σ₀, σ, h1, h2, h3, h4, h5, h6, h7, h8, h9, h10, h11, h12, h13, h14⟩ := Ex.talk_runs
  refine ⟨σ₀, σ, h1, h2, h3, h4, h5, h6, Ex.far_route, h8, h9, h7, by decide, by simpa using congrArg List.length h10, Ex.near_route, ?_⟩
  obtain ⟨a, t, k1, k2, k3⟩ := List.map_eq_cons_iff.mp h14
  obtain ⟨b, t', k4, k5, k6⟩ := List.map_eq_cons_iff.mp k3
  refine ⟨[a], b, t', by rw [show stop 1 Ex.near = 2 from rfl, k1, k4]; rfl, ?_, rfl⟩
  have hm : madeJourney Net.Ex.row 1 Ex.near b = madeJourney Net.Ex.row 1 Ex.near ⟨b.sender, bs "t", .empty⟩ := rfl
  rw [hm, k5]
  decide +kernel

/-- Messages of different hosts have no common order, even with all links in operation and receiving in order, and even once nothing is
left to do: in a row of three hosts the clients of the first two have heard two of the three messages in opposite orders. -/
theorem C127_no_common_order : ∃ (net : List Hop) (e : Ends) (σ₀ σ : St) (as : List Act), Wired [0, 1, 2] net ∧ Silent σ₀ ∧ exec net e σ₀ as = some σ ∧
    InOrder net e σ₀ as ∧ Proper net σ ∧ Throughout net e (Up net e) σ₀ as ∧ (∀ v, .act v (.run .throwing) ∉ as) ∧ Settled [0, 1, 2] σ ∧
    (own σ 0).map BMsg.sender = [bs "a", bs "b"] ∧ (own σ 1).map BMsg.sender = [bs "c"] ∧
    (heard σ 0 2).map BMsg.sender = [bs "a", bs "b", bs "Link0/c"] ∧ (heard σ 1 2).map BMsg.sender = [bs "Link0/a", bs "c", bs "Link0/b"] := by
  obtain ⟨σ₀, σ, h1, h2, h3, h4, h5, h6, h7, -, -, h10, h11, h12, h13, -⟩ := Ex.talk_runs
  exact ⟨_, _, σ₀, σ, _, Net.Ex.row_wired, h1, h2, h3, h4, h5, h6, h7, h10, h11, h12, h13⟩

end LP.Grid
