import Verif.Lemma.GridSettle
/-!
# C126: a tree of hosts can always come to rest
-/
namespace LP.Grid
open LP.Bus (BMsg Delivery TopicRule)
open LP.Net (Hop Wired Connected Acyclic Hub Plain)

/-- In a tree of working hosts, whatever has happened, once the calls of `Publish` by clients are completed the bus threads and
the links alone can bring everything published to its end: there is a continuation without any event caused by a client, and with
the links in operation throughout, after which nothing is left to do. -/
theorem C126_tree_can_settle {ns : List Nat} {net : List Hop} (hne : ns ≠ []) (hw : Wired ns net) (hc : Connected ns net)
    (ha : Acyclic net) (e : Ends) {σ₀ σ : St} {as : List Act} (hsi : Silent σ₀) (he : exec net e σ₀ as = some σ)
    (hp : Proper net σ) (hin : ∀ x ∈ σ.injected, x.1 ∈ ns) (hu : Up net e σ) (hwk : Working ns net e σ) (hno : NoClient σ) :
    ∃ bs τ, exec net e σ bs = some τ ∧ (∀ a ∈ bs, Unaided a) ∧ Throughout net e (Up net e) σ bs ∧ Settled ns τ ∧
      τ.injected = σ.injected := by
  have hi := wired_inside hw
  suffices H : ∀ k, ∀ {σ : St}, Proper net σ → (∀ x ∈ σ.injected, x.1 ∈ ns) → Ready ns net e σ₀ σ →
      σ.injected.length * ns.length - volume σ ns ≤ k → ∃ τ, Leads ns net e σ₀ σ τ ∧ Settled ns τ by
    obtain ⟨τ, ⟨bs, h1, h2, h3, -, h5⟩, h6⟩ := H _ hp hin ⟨⟨as, he⟩, hu, hwk, hno⟩ (Nat.le_refl _)
    exact ⟨bs, τ, h1, h2, h3, h6, h5⟩
  intro k
  induction k with
  | zero =>
    intro σ hp hin hr hk
    obtain ⟨τ, f1, f2, -, f4⟩ := leads_idle hi hsi ns (fun _ h => h) hr
    have more : ∀ ρ, Leads ns net e σ₀ τ ρ → ¬ volume τ ns < volume ρ ns := by
      intro ρ hρ hlt
      obtain ⟨cs, hcs⟩ := (leads_ready hρ).from'
      have hinj : ρ.injected = σ.injected := (leads_injected hρ).trans (leads_injected f1)
      have hb := volume_bound (σ := ρ) (n := ρ.injected.length) (vs := ns) (fun v hv =>
        (C126_tree_published_once hne hw hc ha e hsi hcs (by unfold Proper; rw [hinj]; exact hp) (by rw [hinj]; exact hin) v hv).1)
      have hle := volume_le (σ := σ) (τ := τ) (fun v => by rw [f4]) ns
      rw [hinj] at hb
      omega
    refine ⟨τ, f1, ⟨fun v hv => ⟨f2 v hv, ?_⟩, ?_⟩⟩
    · by_cases hn : (τ.host v).inflight = []
      · exact hn
      · obtain ⟨ρ, g1, g2⟩ := leads_push hi hsi (leads_ready f1) hv hn
        exact absurd g2 (more ρ g1)
    · by_cases hn : τ.way = []
      · exact hn
      · obtain ⟨ρ, g1, g2⟩ := leads_receive hi hsi (leads_ready f1) hn
        exact absurd g2 (more ρ g1)
  | succ k ih =>
    intro σ hp hin hr hk
    obtain ⟨τ, f1, f2, -, f4⟩ := leads_idle hi hsi ns (fun _ h => h) hr
    have hle := volume_le (σ := σ) (τ := τ) (fun v => by rw [f4]) ns
    have again : ∀ ρ, Leads ns net e σ₀ τ ρ → volume τ ns < volume ρ ns → ∃ τ, Leads ns net e σ₀ σ τ ∧ Settled ns τ := by
      intro ρ hρ hlt
      have hinj : ρ.injected = σ.injected := (leads_injected hρ).trans (leads_injected f1)
      obtain ⟨χ, g1, g2⟩ := ih (σ := ρ) (by unfold Proper; rw [hinj]; exact hp) (by rw [hinj]; exact hin) (leads_ready hρ)
        (by rw [hinj]; omega)
      exact ⟨χ, (f1.trans hρ).trans g1, g2⟩
    by_cases hn : ∃ v ∈ ns, (τ.host v).inflight ≠ []
    · obtain ⟨v, hv, hn⟩ := hn
      obtain ⟨ρ, g1, g2⟩ := leads_push hi hsi (leads_ready f1) hv hn
      exact again ρ g1 g2
    · by_cases hway : τ.way = []
      · refine ⟨τ, f1, ⟨fun v hv => ⟨f2 v hv, ?_⟩, hway⟩⟩
        by_cases h5 : (τ.host v).inflight = []
        · exact h5
        · exact absurd ⟨v, hv, h5⟩ hn
      · obtain ⟨ρ, g1, g2⟩ := leads_receive hi hsi (leads_ready f1) hway
        exact again ρ g1 g2

/-! ## Three hosts in a row -/
namespace Ex


/-- How each host of the example is set up: two buses for links, each with a subscriber to everything, and a subscriber of a client
to one topic on a third bus. -/
def setUp : List Bus.Act := [.createChild 0 (bs "Link0"), .createChild 0 (bs "Link1"), .createChild 0 (bs "c"), .startChild 1, .startChild 2, .startChild 3,
  .createSub 1 (bs "/**/*") (some 0), .createSub 2 (bs "/**/*") (some 0), .createSub 3 (bs "t") (some 7), .start]

/-- The host. -/
def begin : Option Bus.St := (Bus.initial (bs "root")).bind (fun b => Bus.exec b setUp)

/-- The hosts. -/
def hosts (b : Bus.St) : St := ⟨fun _ => b, [], fun _ => [], [], []⟩

/-- The links of the example use the bus with their name. -/
def ends : Ends := ⟨fun h => if h.out = bs "Link0" then 0 else 1, fun h => if h.inn = bs "Link0" then 1 else 2⟩

/-- Steps of the bus thread of one host. -/
def thread (v n : Nat) : List Act := List.replicate n (.act v (.run .go))

/-- Check a condition along an execution, and another one in the end. -/
def watch (net : List Hop) (P k : St → Bool) : St → List Act → Bool
  | σ, [] => P σ && k σ
  | σ, a :: as => P σ && match step net ends σ a with
    | some σ' => watch net P k σ' as
    | none => false

theorem watch_sound {net : List Hop} {P k : St → Bool} {P' : St → Prop} (hP : ∀ τ, P τ = true → P' τ) {σ : St} {as : List Act}
    (h : watch net P k σ as = true) : Throughout net ends P' σ as ∧ ∃ σ', exec net ends σ as = some σ' ∧ k σ' = true := by
  induction as generalizing σ with
  | nil =>
    simp only [watch, Bool.and_eq_true] at h
    exact ⟨hP _ h.1, σ, rfl, h.2⟩
  | cons a as ih =>
    simp only [watch, Bool.and_eq_true] at h
    obtain ⟨h1, h3⟩ := h
    split at h3
    · rename_i τ hτ
      obtain ⟨i1, σ', i3, i4⟩ := ih h3
      refine ⟨⟨hP _ h1, fun ρ e => ?_⟩, σ', by simp only [exec, hτ]; exact i3, i4⟩
      rw [hτ] at e; cases e; exact i1
    · cases h3

/-- Check that the links of a network are in operation, and the client's subscriber on node 2. -/
def served (net : List Hop) (σ : St) : Bool :=
  net.all (fun h => decide (ends.sub h < (σ.host h.src).w.ns) && Bus.liveChild (ends.sub h) h.out (σ.host h.src) &&
    ((σ.host h.src).w.sub (ends.sub h)).topic == bs "/**/*" && ((σ.host h.dst).w.bus (ends.bus h)).attached) &&
  Bus.liveChild 2 (bs "c") (σ.host 2)

theorem served_sound {net : List Hop} {σ : St} (h : served net σ = true) : Up net ends σ ∧ Bus.Live (σ.host 2).w 2 := by
  simp only [served, Bool.and_eq_true] at h
  refine ⟨fun g hg => ?_, Bus.liveChild_live _ h.2⟩
  have := List.all_eq_true.1 h.1 g hg
  simp only [Bool.and_eq_true, decide_eq_true_eq, beq_iff_eq] at this
  exact ⟨this.1.1.1, Bus.liveChild_live _ this.1.1.2, this.1.2, this.2⟩

/-- Check that nothing is left to do on three hosts. -/
def atRest (σ : St) : Bool := [0, 1, 2].all (fun v => (σ.host v).w.queue.isEmpty && (σ.host v).phase.batch.isEmpty &&
  (match (σ.host v).phase with | .visit _ _ _ _ => false | _ => true) && (σ.host v).inflight.isEmpty) && σ.way.isEmpty

theorem atRest_sound {σ : St} (h : atRest σ = true) : Settled [0, 1, 2] σ := by
  simp only [atRest, Bool.and_eq_true] at h
  refine ⟨fun v hv => ?_, by simpa using h.2⟩
  have := List.all_eq_true.1 h.1 v hv
  simp only [Bool.and_eq_true, List.isEmpty_iff] at this
  obtain ⟨⟨⟨h1, h2⟩, h3⟩, h4⟩ := this
  refine ⟨⟨h1, h2, fun m st cb b e => ?_⟩, h4⟩
  rw [e] at h3; cases h3

/-- A client of host 0 publishes twice, the second time under another topic, and everything is worked off. -/
def course : List Act := [.act 0 (.publish 3 Net.Ex.msg), .act 0 (.publish 3 ⟨bs "c", bs "u", .empty⟩), .act 0 (.push 0), .act 0 (.push 0)] ++
  thread 0 60 ++ [.receive 0, .act 1 (.push 0), .receive 0, .act 1 (.push 0)] ++ thread 1 60 ++
  [.receive 0, .receive 0, .act 2 (.push 0), .act 2 (.push 0)] ++ thread 2 60

/-- What the end is checked for. -/
def done (σ : St) : Bool := atRest σ && σ.injected.map (fun x => (x.1, x.2.sender, x.2.topic)) == [(0, bs "SysInfo0", bs "t"), (0, bs "c", bs "u")] &&
  (heard σ 2 2).map (fun m => (m.sender, m.topic)) == [(bs "Link0/Link0/SysInfo0", bs "t")]

theorem silent_hosts {b : Bus.St} (h : begin = some b) (hp : b.published = [] ∧ b.inflight = []) : Silent (hosts b) := by
  refine ⟨fun v => ?_, fun _ => hp.1, fun _ => hp.2, rfl, fun _ => rfl, rfl, rfl⟩
  simp only [begin, Option.bind_eq_some_iff] at h
  obtain ⟨b₀, h1, h2⟩ := h
  exact ⟨_, b₀, _, h1, h2⟩

/-- Check what the beginning is required to be. -/
def fresh (b : Bus.St) : Bool := b.published.isEmpty && b.inflight.isEmpty && decide (2 < b.w.ns)

theorem fresh_sound {b : Bus.St} (h : begin = some b) (hf : fresh b = true) : Silent (hosts b) ∧ 2 < b.w.ns := by
  simp only [fresh, Bool.and_eq_true, List.isEmpty_iff, decide_eq_true_eq] at hf
  exact ⟨silent_hosts h hf.1, hf.2⟩

theorem run_of {f : Bus.St → Bool} (h : (match begin with | none => false | some b => f b) = true) : ∃ b, begin = some b ∧ f b = true := by
  cases hs : begin with
  | none => rw [hs] at h; cases h
  | some b => rw [hs] at h; exact ⟨b, rfl, h⟩

/-- Check that no message from outside looks as if it came through a link. -/
def honest (net : List Hop) (σ : St) : Bool := σ.injected.all (fun x => net.all (fun h => !Net.echo h.out x.2)) && σ.injected.all (fun x => [0, 1, 2].contains x.1)

theorem honest_sound {net : List Hop} {σ : St} (h : honest net σ = true) : Proper net σ ∧ ∀ x ∈ σ.injected, x.1 ∈ [0, 1, 2] := by
  simp only [honest, Bool.and_eq_true] at h
  refine ⟨fun x hx g hg _ hfrom => ?_, fun x hx => by simpa using List.all_eq_true.1 h.2 x hx⟩
  have h1 := List.all_eq_true.1 (List.all_eq_true.1 h.1 x hx) g hg
  rw [(Net.echo_iff g.out x.2).2 hfrom] at h1
  cases h1

/-- No callback throws in the example. -/
theorem never_throws {as : List Act} (h : as.all (fun a => match a with | .act _ (.run .throwing) => false | _ => true) = true) :
    ∀ v, .act v (.run .throwing) ∉ as := by
  intro v hv
  have := List.all_eq_true.1 h _ hv
  cases this

end Ex

-- The hypotheses of `C126_tree_heard_once` and `C126_tree_published_once`, those of their second halves included: the subscriber of the
-- client of the last host has heard the one message of its topic.
example : ∃ σ₀ σ, Silent σ₀ ∧ exec Net.Ex.row Ex.ends σ₀ Ex.course = some σ ∧ Proper Net.Ex.row σ ∧ (∀ x ∈ σ.injected, x.1 ∈ [0, 1, 2]) ∧
    Throughout Net.Ex.row Ex.ends (Up Net.Ex.row Ex.ends) σ₀ Ex.course ∧ (∀ v, .act v (.run .throwing) ∉ Ex.course) ∧ Settled [0, 1, 2] σ ∧
    2 < (σ₀.host 2).w.ns ∧ Throughout Net.Ex.row Ex.ends (fun τ => Bus.Live (τ.host 2).w 2) σ₀ Ex.course ∧ σ.injected.length = 2 ∧
    (heard σ 2 2).map (fun m => (m.sender, m.topic)) = [(bs "Link0/Link0/SysInfo0", bs "t")] := by
  obtain ⟨b, hb, h⟩ := Ex.run_of (f := fun b => Ex.fresh b && Ex.watch Net.Ex.row (Ex.served Net.Ex.row) (fun σ => Ex.done σ && Ex.honest Net.Ex.row σ)
    (Ex.hosts b) Ex.course) (by decide +kernel)
  simp only [Bool.and_eq_true] at h
  obtain ⟨h1, h2⟩ := Ex.fresh_sound hb h.1
  obtain ⟨h3, σ, h4, h5⟩ := Ex.watch_sound (fun _ => Ex.served_sound) h.2
  simp only [Bool.and_eq_true, Ex.done, beq_iff_eq] at h5
  obtain ⟨⟨⟨h5, h6⟩, h7⟩, h8⟩ := h5
  obtain ⟨h8, h9⟩ := Ex.honest_sound h8
  exact ⟨_, σ, h1, h4, h8, h9, throughout_imp (fun _ h => h.1) h3, Ex.never_throws (by decide), Ex.atRest_sound h5, h2,
    throughout_imp (fun _ h => h.2) h3, by simpa using congrArg List.length h6, h7⟩

-- and of `C126_tree_can_settle`: both calls of the client are completed, the rest is still to be done
example : ∃ σ₀ σ, Silent σ₀ ∧ exec Net.Ex.row Ex.ends σ₀ (Ex.course.take 4) = some σ ∧ Proper Net.Ex.row σ ∧ (∀ x ∈ σ.injected, x.1 ∈ [0, 1, 2]) ∧
    Up Net.Ex.row Ex.ends σ ∧ Working [0, 1, 2] Net.Ex.row Ex.ends σ ∧ NoClient σ ∧ σ.injected.length = 2 ∧ (σ.host 0).w.queue.length = 2 := by
  obtain ⟨b, hb, h⟩ := Ex.run_of (f := fun b => Ex.fresh b && Ex.watch Net.Ex.row (Ex.served Net.Ex.row) (fun σ => Ex.honest Net.Ex.row σ &&
    [0, 1, 2].all (fun v => ((σ.host v).w.bus 0).running && !(match (σ.host v).phase with | .off => true | _ => false) && decide (2 < (σ.host v).w.nb)) &&
    decide ((σ.calls 0).length = 0) && decide (σ.injected.length = 2) && decide ((σ.host 0).w.queue.length = 2)) (Ex.hosts b) (Ex.course.take 4)) (by decide +kernel)
  simp only [Bool.and_eq_true] at h
  obtain ⟨h1, -⟩ := Ex.fresh_sound hb h.1
  obtain ⟨h3, σ, h4, h5⟩ := Ex.watch_sound (fun _ => Ex.served_sound) h.2
  simp only [Bool.and_eq_true, decide_eq_true_eq] at h5
  obtain ⟨⟨⟨⟨h5, h6⟩, h7⟩, h8⟩, h9⟩ := h5
  obtain ⟨k1, k2⟩ := Ex.honest_sound h5
  have k3 : ∀ v ∈ [0, 1, 2], ((σ.host v).w.bus 0).running = true ∧ (σ.host v).phase ≠ .off ∧ 2 < (σ.host v).w.nb := by
    intro v hv
    have := List.all_eq_true.1 h6 v hv
    simp only [Bool.and_eq_true, decide_eq_true_eq] at this
    refine ⟨this.1.1, fun e => ?_, this.2⟩
    have h := this.1.2
    rw [e] at h; cases h
  refine ⟨_, σ, h1, h4, k1, k2, (throughout_last h3 h4).1, ⟨fun v hv => ⟨(k3 v hv).1, (k3 v hv).2.1⟩, fun g hg => ?_⟩, fun v hv => ?_, h8, h9⟩
  · have := (k3 g.dst (wired_inside Net.Ex.row_wired g hg).2).2.2
    simp only [Ex.ends]
    split <;> omega
  · by_cases e : v = 0
    · subst e
      rw [List.length_eq_zero_iff.mp h7] at hv
      cases hv
    · have : σ.calls v = [] := by
        have : ∀ {as : List Act} {τ τ' : St}, (∀ a ∈ as, ∃ x, a = .act 0 x) → exec Net.Ex.row Ex.ends τ as = some τ' → τ'.calls v = τ.calls v := by
          intro as
          induction as with
          | nil => intro τ τ' _ h; cases h; rfl
          | cons a as ih =>
            intro τ τ' ha h
            obtain ⟨ρ, f1, f2⟩ := exec_cons h
            rw [ih (fun a h => ha a (by simp [h])) f2]
            obtain ⟨x, rfl⟩ := ha a (by simp)
            simp only [step] at f1
            split at f1 <;> cases f1
            exact put_other _ _ e
        exact this (by simp [Ex.course]) h4
      rw [this] at hv; cases hv

-- `C126_cycle_never_settles`: three hosts in a ring, one message
example : ∃ σ₀ σ, Silent σ₀ ∧ exec Net.Ex.ring Ex.ends σ₀ (Ex.course.take 1 ++ [.act 0 (.push 0)] ++ Ex.thread 0 60) = some σ ∧ Proper Net.Ex.ring σ ∧
    (∃ x ∈ σ.injected, x.1 ∈ [0, 1, 2]) ∧
    Throughout Net.Ex.ring Ex.ends (Up Net.Ex.ring Ex.ends) σ₀ (Ex.course.take 1 ++ [.act 0 (.push 0)] ++ Ex.thread 0 60) ∧
    (∀ v, .act v (.run .throwing) ∉ Ex.course.take 1 ++ [.act 0 (.push 0)] ++ Ex.thread 0 60) ∧ σ.way.length = 2 := by
  obtain ⟨b, hb, h⟩ := Ex.run_of (f := fun b => Ex.fresh b && Ex.watch Net.Ex.ring (Ex.served Net.Ex.ring) (fun σ => Ex.honest Net.Ex.ring σ &&
    decide (σ.way.length = 2) && decide (σ.injected.length = 1)) (Ex.hosts b) (Ex.course.take 1 ++ [.act 0 (.push 0)] ++ Ex.thread 0 60)) (by decide +kernel)
  simp only [Bool.and_eq_true] at h
  obtain ⟨h1, -⟩ := Ex.fresh_sound hb h.1
  obtain ⟨h3, σ, h4, h5⟩ := Ex.watch_sound (fun _ => Ex.served_sound) h.2
  simp only [Bool.and_eq_true, decide_eq_true_eq] at h5
  obtain ⟨⟨h5, h6⟩, h7⟩ := h5
  obtain ⟨k1, k2⟩ := Ex.honest_sound h5
  obtain ⟨x, hx⟩ := List.length_eq_one_iff.1 h7
  exact ⟨_, σ, h1, h4, k1, ⟨x, by simp [hx], k2 x (by simp [hx])⟩, throughout_imp (fun _ h => h.1) h3, Ex.never_throws (by decide), h6⟩

/-- A client of host 1 publishes, and everything is worked off. -/
def Ex.viaHub : List Act := [.act 1 (.publish 3 Net.Ex.msg), .act 1 (.push 0)] ++ Ex.thread 1 60 ++ [.receive 0, .act 0 (.push 0)] ++ Ex.thread 0 60

-- `C126_hub_does_not_relay`: host 1 and the hub hear the message, host 2 does not
example : ∃ σ₀ σ, Net.Ex.star.Nodup ∧ Plain Net.Ex.star ∧ Hub Net.Ex.star 0 (bs "Link0") ∧ (∀ h ∈ Net.Ex.star, h.src = 0 ∨ h.dst = 0) ∧
    Silent σ₀ ∧ exec Net.Ex.star Ex.ends σ₀ Ex.viaHub = some σ ∧ Proper Net.Ex.star σ ∧ (∀ x ∈ σ.injected, x.1 ≠ 0) ∧ Settled [0, 1, 2] σ ∧
    (heard σ 0 2).length = 1 ∧ (heard σ 1 2).length = 1 ∧ (heard σ 2 2).length = 0 := by
  obtain ⟨b, hb, h⟩ := Ex.run_of (f := fun b => Ex.fresh b && Ex.watch Net.Ex.star (Ex.served Net.Ex.star) (fun σ => Ex.honest Net.Ex.star σ &&
    Ex.atRest σ && σ.injected.all (fun x => decide (x.1 ≠ 0)) && decide ((heard σ 0 2).length = 1) && decide ((heard σ 1 2).length = 1) &&
    decide ((heard σ 2 2).length = 0)) (Ex.hosts b) Ex.viaHub) (by decide +kernel)
  simp only [Bool.and_eq_true] at h
  obtain ⟨h1, -⟩ := Ex.fresh_sound hb h.1
  obtain ⟨h3, σ, h4, h5⟩ := Ex.watch_sound (fun _ => Ex.served_sound) h.2
  simp only [Bool.and_eq_true, decide_eq_true_eq] at h5
  obtain ⟨⟨⟨⟨⟨h5, h6⟩, h7⟩, h8⟩, h9⟩, h10⟩ := h5
  exact ⟨_, σ, by decide, by unfold Plain; decide, by unfold Hub; decide, by decide, h1, h4, (Ex.honest_sound h5).1,
    fun x hx => by simpa using List.all_eq_true.1 h7 x hx, Ex.atRest_sound h6, h8, h9, h10⟩

end LP.Grid
