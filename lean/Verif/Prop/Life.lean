import Verif.Lemma.LifeFrame
/-!
# C99–C103: how long buses, publishers, subscribers and actions live
-/
namespace LP.Life

/-! ## C99: a publisher is usable as long as its bus is kept -/

/-- Between two calls a bus is alive if and only if client code keeps it, or a bus above it, in a variable or captured in
a callback. -/
theorem C99_bus_lifetime {σ : St} (h : Reachable σ) (hs : σ.settled = true) (b : Nat) : LiveBus σ b ↔ BusKept σ b :=
  ⟨bus_kept h.inv hs b, fun ⟨_, la, _, ab⟩ => above_live h.inv ab la⟩

/-- Publishing through a publisher is defined if its bus or one above it is kept, and undefined if not: holding the
publisher does not keep the bus. -/
theorem C99_publish {σ : St} (h : Reachable σ) (hs : σ.settled = true) {p b : Nat} {l : Option Nat} (hp : p ∈ σ.held)
    (ho : σ.obj p = some (.pub (some (b, l)))) (hl : σ.runs l = true) :
    (BusKept σ b → step σ (.publish p) = .to σ) ∧ (¬ BusKept σ b → step σ (.publish p) = .ub) := by
  have e : step σ (.publish p) = publish σ p := by simp [step, hs, call, hp]
  rw [e, ← C99_bus_lifetime h hs b]
  exact publish_eq h.inv ho hl

/-- The same of the requests of an action consumer. -/
theorem C99_request {σ : St} (h : Reachable σ) (hs : σ.settled = true) {a s p b : Nat} {fs : List Fn} {l : Option Nat}
    {fn : Fn} (ha : a ∈ σ.held) (hf : σ.mayUse fn = true) (hx : σ.obj a = some (.act false s p fs))
    (ho : σ.obj p = some (.pub (some (b, l)))) (hl : σ.runs l = true) :
    (BusKept σ b → ∃ σ', step σ (.request a fn) = .to σ' ∧ σ'.obj a = some (.act false s p (fn :: fs))) ∧
    (¬ BusKept σ b → step σ (.request a fn) = .ub) := by
  have e : step σ (.request a fn) = publish (σ.put a (some (.act false s p (fn :: fs)))) p := by
    simp [step, hs, call, ha, hf, hx]
  have hpa : p ≠ a := by intro e; subst e; rw [hx] at ho; cases ho
  have inv' : Inv (σ.put a (some (.act false s p (fn :: fs)))) := inv_setFns h.inv hx (by
    intro f hf'
    rcases List.mem_cons.1 hf' with e | e
    · subst e; exact .inr (mayUse_owns hf).1
    · exact .inl e)
  have ho' : (σ.put a (some (.act false s p (fn :: fs)))).obj p = some (.pub (some (b, l))) := by
    simp only [St.put]; rw [if_neg hpa]; exact ho
  have lb : LiveBus (σ.put a (some (.act false s p (fn :: fs)))) b ↔ LiveBus σ b := by
    simp only [LiveBus, St.put]
    by_cases e : b = a
    · subst e
      rw [if_pos rfl, hx]
      exact ⟨fun ⟨o, h⟩ => (by cases h), fun ⟨o, h⟩ => (by cases h)⟩
    · rw [if_neg e]
  rw [e, ← C99_bus_lifetime h hs b, ← lb]
  have := publish_eq inv' ho' hl
  exact ⟨fun k => ⟨_, this.1 k, if_pos rfl⟩, this.2⟩

/-- The same of the responses of an action provider. -/
theorem C99_respond {σ : St} (h : Reachable σ) (hs : σ.settled = true) {a s p b : Nat} {fs : List Fn} {l : Option Nat}
    (ha : a ∈ σ.held) (hx : σ.obj a = some (.act true s p fs)) (ho : σ.obj p = some (.pub (some (b, l))))
    (hl : σ.runs l = true) :
    (BusKept σ b → step σ (.respond a) = .to σ) ∧ (¬ BusKept σ b → step σ (.respond a) = .ub) := by
  have e : step σ (.respond a) = publish σ p := by simp [step, hs, call, ha, hx]
  rw [e, ← C99_bus_lifetime h hs b]
  exact publish_eq h.inv ho hl

/-- All of it in terms of calls: a publisher made by `CreatePublisher` on a bus, used at any later time, is defined if and
only if that bus or one above it is kept, as long as it is not deleted and the library of the caller is not closed. -/
theorem C99_created {σ σ1 σ2 : St} (h : Reachable σ) {b : Nat} {l : Option Nat} (hc : step σ (.createPub b l) = .to σ1)
    {as : List Act} (he : exec σ1 as = .to σ2) (hd : ∀ b', Act.delete b' σ.n ∉ as) (hs : σ2.settled = true)
    (hh : σ.n ∈ σ2.held) (hl : σ2.runs l = true) :
    (BusKept σ2 b → step σ2 (.publish σ.n) = .to σ2) ∧ (¬ BusKept σ2 b → step σ2 (.publish σ.n) = .ub) := by
  have h1 : Reachable σ1 := h.exec (as := [.createPub b l]) (by simp only [exec, hc])
  have hp : σ1.obj σ.n = some (.pub (some (b, l))) := by
    rcases step_to hc with ⟨y, hy, _⟩ | ⟨_, e⟩
    · cases hy
    · simp only [call] at e
      repeat' split at e
      all_goals cases e
      rename_i hh _ o ho
      have hn := lt_of_live h.inv ho
      simp only [St.hold, St.put, St.alloc]
      rw [if_neg (by omega)]; simp
  have h2 := h1.exec he
  exact C99_publish h2 hs hh (pub_exec as h1.inv he hp hd (h2.inv.heldLive _ hh)) hl

/-- What an execution comes to, for the examples. -/
def outcome (as : List Act) (P : St → Bool) : Option Bool :=
  match exec init as with
  | .to σ => some (P σ)
  | .ub => none
  | .cannot => some false

-- a publisher of a child bus is used after the handle of the child was released, while the root is held
example : outcome [.newRoot, .createChild 0, .createPub 1 none, .drop 1, .publish 2] (fun _ => true) = some true := by
  decide +kernel
-- the publisher outlives its bus: undefined
example : outcome [.newRoot, .createPub 0 none, .drop 0, .destroy 0, .publish 1] (fun _ => true) = none := by
  decide +kernel
-- a consumer and a provider outlive their bus: undefined
example : outcome [.newRoot, .createAct 0 none none, .drop 0, .destroy 0, .request 3 ⟨[], none⟩] (fun _ => true) = none := by
  decide +kernel
example : outcome [.newRoot, .createAct 0 (some ⟨[], none⟩) none, .drop 0, .destroy 0, .respond 3] (fun _ => true) = none := by
  decide +kernel
-- the hypotheses: a settled reachable state with a held publisher of a bus that is (not) kept
example : outcome [.newRoot, .createPub 0 none, .drop 0, .destroy 0]
    (fun σ => σ.settled && σ.held.contains 1 && (σ.obj 0).isNone &&
      (match σ.obj 1 with | some (.pub (some (0, none))) => true | _ => false)) = some true := by decide +kernel
example : outcome [.newRoot, .createAct 0 none none]
    (fun σ => σ.settled && σ.held.contains 3 && σ.mayUse ⟨[0], none⟩ &&
      (match σ.obj 3, σ.obj 2 with | some (.act false 1 2 []), some (.pub (some (0, none))) => true | _, _ => false)) =
    some true := by decide +kernel
-- a bus captured by a callback of its own subscriber is kept without a handle
example : outcome [.newRoot, .createSub 0 (some ⟨[0], none⟩), .createPub 0 none, .drop 0, .publish 2]
    (fun σ => (σ.obj 0).isSome) = some true := by decide +kernel

/-! ## C100: a bus may outlive the buses above it -/

/-- Publishing on a bus one holds is defined, whatever became of the others. -/
theorem C100_bus_publish {σ : St} (h : Reachable σ) (hs : σ.settled = true) {b : Nat} (hb : b ∈ σ.held)
    (hl : LiveBus σ b) : step σ (.busPublish b) = .to σ := by
  obtain ⟨o, ho⟩ := hl
  simp only [step, hs, if_true, call, hb, ho, forward]
  cases e : o.fwd with
  | none => rfl
  | some r =>
    obtain ⟨_, ro, hr, _⟩ := fwd_root h.inv b o ho e
    simp [hr]

/-- A bus forwards to the bus at the top, which is alive; a bus above which one was destroyed forwards nowhere: messages
published on it are dropped, and `CreateChildBus` on it changes nothing (it throws, C36). -/
theorem C100_orphan {σ : St} (h : Reachable σ) {b : Nat} {o : BusO} (ho : σ.obj b = some (.bus o)) :
    (∀ r, o.fwd = some r → LiveBus σ r ∧ Above σ r b ∧ σ.parent r = none) ∧
    (∀ a, Above σ a b → ¬ LiveBus σ a → o.fwd = none ∧
      (σ.settled = true → b ∈ σ.held → step σ (.createChild b) = .to σ)) := by
  constructor
  · intro r hr
    obtain ⟨_, ro, h1, h2⟩ := fwd_root h.inv b o ho hr
    exact ⟨⟨ro, h1⟩, fwd_above h.inv b o ho hr, h.inv.root r ro h1 h2⟩
  · intro a ab hn
    have e : o.fwd = none := by
      cases e : o.fwd with
      | none => rfl
      | some r =>
        obtain ⟨ao, h1, _⟩ := above_fwd h.inv ab o ho e
        exact absurd ⟨ao, h1⟩ hn
    exact ⟨e, fun hs hb => by simp [step, hs, call, hb, ho, e]⟩

-- the root is destroyed, the grandchild lives on: publishing on it and through its publisher is defined
example : outcome [.newRoot, .createChild 0, .createChild 1, .createPub 2 none, .drop 1, .drop 0, .destroy 0, .destroy 1,
    .busPublish 2, .publish 3, .createChild 2]
    (fun σ => (match σ.obj 2 with | some (.bus ⟨[], [3], none⟩) => true | _ => false) && σ.n == 4 && σ.settled &&
      (σ.obj 0).isNone && (σ.obj 1).isNone && σ.parent 2 == some 1 && σ.parent 1 == some 0) = some true := by decide +kernel

/-! ## C101: action providers and consumers are never destroyed -/

/-- An action provider or consumer, once created, is never destroyed, nor are its subscriber and its publisher: the
callback of the subscriber owns the provider, and the provider owns the subscriber. -/
theorem C101_never_destroyed {σ : St} (h : Reachable σ) {a s p : Nat} {k : Bool} {fs : List Fn}
    (ha : σ.obj a = some (.act k s p fs)) {as : List Act} {σ' : St} (e : exec σ as = .to σ') :
    (∃ fs', σ'.obj a = some (.act k s p fs')) ∧ σ'.obj s ≠ none ∧ σ'.obj p ≠ none := by
  have key : ∃ fs', σ'.obj a = some (.act k s p fs') := by
    have := exec_ind (P := fun σ => Inv σ ∧ ∃ fs', σ.obj a = some (.act k s p fs'))
      (fun σ1 σ2 x hp hs => ⟨inv_step hp.1 hs, by
        obtain ⟨fs1, h1⟩ := hp.2
        obtain ⟨fs2, h2, _⟩ := act_step hp.1 hs h1
        exact ⟨fs2, h2⟩⟩) as σ σ' ⟨h.inv, fs, ha⟩ e
    exact this.2
  obtain ⟨fs', h'⟩ := key
  obtain ⟨⟨l, g1⟩, ⟨fn, g2⟩, _⟩ := (inv_exec h.inv e).act a k s p fs' h'
  exact ⟨⟨fs', h'⟩, (by rw [g1]; exact fun h => by cases h), (by rw [g2]; exact fun h => by cases h)⟩

/-- Nor is anything that its functions have captured, unless they are erased: `Reset`, or a response. -/
theorem C101_captured {σ : St} (h : Reachable σ) {a s p : Nat} {k : Bool} {fs : List Fn}
    (ha : σ.obj a = some (.act k s p fs)) {as : List Act} {σ' : St} (e : exec σ as = .to σ')
    (hne : ∀ i, Act.erase a i ∉ as) : ∀ f ∈ fs, ∀ x ∈ f.owns, σ'.obj x ≠ none := by
  have key : ∀ (as : List Act) (σ : St) (fs : List Fn), Inv σ → σ.obj a = some (.act k s p fs) → exec σ as = .to σ' →
      (∀ i, Act.erase a i ∉ as) → ∃ fs', σ'.obj a = some (.act k s p fs') ∧ ∀ f ∈ fs, f ∈ fs' := by
    intro as
    induction as with
    | nil => intro σ fs _ ha e _; cases e; exact ⟨fs, ha, fun f hf => hf⟩
    | cons x as ih =>
      intro σ fs h ha e hne
      obtain ⟨σ1, e1, e2⟩ := exec_cons e
      obtain ⟨fs1, h1, h2⟩ := act_step h e1 ha
      obtain ⟨fs2, h3, h4⟩ := ih σ1 fs1 (inv_step h e1) h1 e2 (fun i hi => hne i (List.mem_cons_of_mem _ hi))
      refine ⟨fs2, h3, fun f hf => h4 f (h2 (fun i hi => ?_) f hf)⟩
      exact hne i (by rw [hi]; exact List.mem_cons_self)
  obtain ⟨fs', h1, h2⟩ := key as σ fs h.inv ha e hne
  intro f hf x hx
  exact (inv_exec h.inv e).fnLive a _ h1 f (h2 f hf) x hx

/-- Nothing else leaks: between two calls everything alive is owned by something client code keeps in a variable or has
captured in a callback; without those nothing is left. -/
theorem C101_released {σ : St} (h : Reachable σ) (hs : σ.settled = true) :
    (∀ x, σ.obj x ≠ none → ∃ a, Kept σ a ∧ Owns σ a x) ∧
    ((∀ a, ¬ Kept σ a) → ∀ x, σ.obj x = none) := by
  refine ⟨fun x hx => live_kept h.inv hs hx, fun hk x => ?_⟩
  cases e : σ.obj x with
  | none => rfl
  | some o =>
    obtain ⟨a, ka, _⟩ := live_kept h.inv hs (x := x) (by rw [e]; exact fun h => by cases h)
    exact absurd ka (hk a)

/-- Destructors always come to an end: from every reachable state they lead to one in which none is due, or to undefined
behaviour. -/
theorem C101_destructors_end {σ : St} (h : Reachable σ) : ∃ ds : List Nat,
    exec σ (ds.map .destroy) = .ub ∨ ∃ σ', exec σ (ds.map .destroy) = .to σ' ∧ σ'.settled = true :=
  settles _ σ h.inv (Nat.le_refl _)

-- the root bus is released: bus, subscriber and publisher are destroyed, the provider with its two parts is left
example : outcome [.newRoot, .createSub 0 none, .createPub 0 none, .createAct 0 (some ⟨[], none⟩) none,
    .drop 1, .drop 2, .drop 5, .drop 0, .destroy 0, .destroy 1, .destroy 2]
    (fun σ => σ.settled && (List.range σ.n).all (fun i => (σ.obj i).isSome == (3 ≤ i && i ≤ 5)) && σ.held.isEmpty) =
    some true := by decide +kernel
-- a provider whose callback captured the bus keeps the whole tree, without any handle
example : outcome [.newRoot, .createChild 0, .createAct 1 (some ⟨[0], none⟩) none, .drop 4, .drop 1, .drop 0]
    (fun σ => σ.settled && (List.range 5).all (fun i => (σ.obj i).isSome) && σ.held.isEmpty) = some true := by
  decide +kernel
-- without a provider nothing is left
example : outcome [.newRoot, .createChild 0, .createSub 1 (some ⟨[], none⟩), .drop 2, .drop 1, .drop 0, .destroy 0,
    .destroy 1, .destroy 2] (fun σ => σ.settled && (List.range 3).all (fun i => (σ.obj i).isNone)) = some true := by
  decide +kernel

/-! ## C104: a participant lives as long as its bus -/

/-- The object that a call creates for the client: a subscriber or a publisher; a provider or consumer. -/
def Creates (σ : St) (b : Nat) : Act → Nat → Prop
  | .createSub b' _, x => b' = b ∧ x = σ.n
  | .createPub b' _, x => b' = b ∧ x = σ.n
  | .createAct b' _ _, x => b' = b ∧ (x = σ.n ∨ x = σ.n + 1 ∨ x = σ.n + 2)
  | _, _ => False

/-- What was created on a bus is alive as long as that bus is, although every handle to it may have been released, unless
it is deleted from that bus. -/
theorem C104_lives_with_bus {σ σ1 σ2 : St} (h : Reachable σ) {a : Act} {b x : Nat} (ha : Creates σ b a x)
    (hc : step σ a = .to σ1) {as : List Act} (he : exec σ1 as = .to σ2) (hd : Act.delete b x ∉ as) (hb : LiveBus σ2 b) :
    σ2.obj x ≠ none := by
  have h1 : Inv σ1 := inv_step h.inv hc
  have hp : ∃ o, σ1.obj b = some (.bus o) ∧ x ∈ o.parts := by
    rcases step_to hc with ⟨y, hy, _⟩ | ⟨_, e⟩
    · subst hy; exact absurd ha (fun h => h)
    · cases a with
      | createSub b' cb =>
        obtain ⟨rfl, rfl⟩ := ha
        simp only [call] at e
        repeat' split at e
        all_goals cases e
        exact ⟨_, if_pos rfl, by simp⟩
      | createPub b' cb =>
        obtain ⟨rfl, rfl⟩ := ha
        simp only [call] at e
        repeat' split at e
        all_goals cases e
        exact ⟨_, if_pos rfl, by simp⟩
      | createAct b' fn lib =>
        obtain ⟨rfl, hx⟩ := ha
        simp only [call] at e
        repeat' split at e
        all_goals cases e
        exact ⟨_, if_pos rfl, by simp; omega⟩
      | _ => exact absurd ha (fun h => h)
  obtain ⟨o, ho, hx⟩ := hp
  obtain ⟨o2, ho2⟩ := hb
  obtain ⟨o', ho', hx'⟩ := part_exec as h1 he ho hx hd (by rw [ho2]; exact fun h => by cases h)
  exact ((inv_exec h1 he).parts b o' ho' x hx').1

-- the handle of a subscriber is released: the subscriber is still there, and is called
example : outcome [.newRoot, .createSub 0 (some ⟨[], none⟩), .drop 1, .deliver 0 1 0] (fun σ => (σ.obj 1).isSome && σ.held == [0]) =
    some true := by decide +kernel
-- deleted and released it is gone
example : outcome [.newRoot, .createSub 0 (some ⟨[], none⟩), .delete 0 1, .drop 1, .destroy 1] (fun σ => (σ.obj 1).isNone) =
    some true := by decide +kernel

/-! ## C102: code of a closed library left behind -/

/-- An object that contains code of a closed library is never destroyed, in no defined execution, and keeps the code.
Whenever no destructor is due, client code keeps something that owns it. -/
theorem C102_left_code {σ : St} (h : Reachable σ) {x l : Nat} (hl : l ∈ σ.closed) (hx : HasCode σ x l) {as : List Act}
    {σ' : St} (e : exec σ as = .to σ') :
    HasCode σ' x l ∧ (σ'.settled = true → ∃ a, Kept σ' a ∧ Owns σ' a x) := by
  have := exec_ind (P := fun σ => Inv σ ∧ l ∈ σ.closed ∧ HasCode σ x l)
    (fun σ1 σ2 x hp hs => ⟨inv_step hp.1 hs, closed_step hs hp.2.1, hasCode_step hp.1 hs hp.2.1 hp.2.2⟩)
    as σ σ' ⟨h.inv, hl, hx⟩ e
  refine ⟨this.2.2, fun hs => live_kept this.1 hs ?_⟩
  obtain ⟨o, ho, _⟩ := this.2.2
  rw [ho]; exact fun h => by cases h

/-- Using such an object is undefined: publishing through a publisher created by the library. -/
theorem C102_publish {σ : St} (hs : σ.settled = true) {p b l : Nat} (hp : p ∈ σ.held) (hl : l ∈ σ.closed)
    (ho : σ.obj p = some (.pub (some (b, some l)))) : step σ (.publish p) = .ub := by
  have e : step σ (.publish p) = publish σ p := by simp [step, hs, call, hp]
  simp [e, publish, ho, St.runs, hl]

/-- So is delivering a message: to a subscriber with a callback of the library, or a response to a consumer with a
callback that the library registered. -/
theorem C102_deliver {σ : St} (hs : σ.settled = true) {b s l : Nat} {o : BusO} {f : Fn} (hl : l ∈ σ.closed)
    (hb : σ.obj b = some (.bus o)) (hp : s ∈ o.parts) (ho : σ.obj s = some (.sub (some f))) :
    (f.lib = some l → ∀ i, step σ (.deliver b s i) = .ub) ∧
    (∀ a k p fs i g, f.owns = [a] → σ.obj a = some (.act k s p fs) → fs[i]? = some g → g.lib = some l →
      step σ (.deliver b s i) = .ub) := by
  have e : ∀ i, step σ (.deliver b s i) = call σ (.deliver b s i) := fun i => by simp [step, hs]
  refine ⟨fun hf i => ?_, fun a k p fs i g h1 h2 h3 h4 => ?_⟩
  · rw [e]; simp [call, hb, ho, hp, St.runs, hf, hl]
  · rw [e]; simp [call, hb, ho, hp, h1, h2, h3, St.runs, h4, hl]

-- a consumer of the program with a callback of a library that is closed
example : outcome [.newRoot, .createAct 0 none none, .request 3 ⟨[], some 5⟩, .close 5, .deliver 0 1 0] (fun _ => true) = none := by
  decide +kernel
example : outcome [.newRoot, .createSub 0 (some ⟨[], some 5⟩), .close 5, .deliver 0 1 0] (fun _ => true) = none ∧
    outcome [.newRoot, .createSub 0 (some ⟨[], some 5⟩), .deliver 0 1 0] (fun _ => true) = some true := by
  decide +kernel
example : outcome [.newRoot, .createPub 0 (some 3), .close 3, .publish 1] (fun _ => true) = none ∧
    outcome [.newRoot, .createPub 0 (some 3), .close 3]
      (fun σ => σ.settled && decide (1 ∈ σ.held) && decide (3 ∈ σ.closed)) = some true := by decide +kernel

/-- A program that left such an object cannot release everything: once nothing is kept, the destructors run into undefined
behaviour, and no order of them avoids it. -/
theorem C102_teardown {σ : St} (h : Reachable σ) {x l : Nat} (hl : l ∈ σ.closed) (hx : HasCode σ x l)
    (hk : ∀ a, ¬ Kept σ a) :
    (∃ ds : List Nat, exec σ (ds.map .destroy) = .ub) ∧
    ∀ (ds : List Nat) σ', exec σ (ds.map .destroy) = .to σ' → σ'.settled = false := by
  have none' : ∀ (ds : List Nat) σ', exec σ (ds.map .destroy) = .to σ' → ∀ a, ¬ Kept σ' a := by
    intro ds
    have : ∀ (ds : List Nat) (σ σ' : St), (∀ a, ¬ Kept σ a) → exec σ (ds.map .destroy) = .to σ' → ∀ a, ¬ Kept σ' a := by
      intro ds
      induction ds with
      | nil => intro σ σ' h e; cases e; exact h
      | cons d ds ih =>
        intro σ σ' h e
        obtain ⟨σ1, e1, e2⟩ := exec_cons e
        refine ih σ1 σ' ?_ e2
        obtain ⟨_, _, e3⟩ := destroy_to (show destroy σ d = .to σ1 from e1)
        have ct : Cut σ (body σ d) := cut_detach _ _ _
        intro a ka
        rcases ka with ka | ⟨i, o, f, hi, hf, ha⟩
        · refine h a (.inl ?_)
          rw [e3] at ka
          have : a ∈ (body σ d).held := ka
          rw [ct.held] at this; exact this
        · refine h a (.inr ⟨i, o, f, ?_, hf, ha⟩)
          rw [e3] at hi
          simp only [St.put] at hi
          split at hi
          · cases hi
          · rcases ct.back hi with g | ⟨bo, g, g'⟩
            · exact g
            · subst g'; cases hf
    exact fun σ' => this ds σ σ' hk
  have unsettled : ∀ (ds : List Nat) σ', exec σ (ds.map .destroy) = .to σ' → σ'.settled = false := by
    intro ds σ' e
    cases hs : σ'.settled with
    | false => rfl
    | true =>
      obtain ⟨a, ka, _⟩ := (C102_left_code h hl hx e).2 hs
      exact absurd ka (none' ds σ' e a)
  refine ⟨?_, unsettled⟩
  obtain ⟨ds, hd | ⟨σ', hd, hs⟩⟩ := settles _ σ h.inv (Nat.le_refl _)
  · exact ⟨ds, hd⟩
  · rw [unsettled ds σ' hd] at hs; cases hs

/-- Every participant created by code of a library contains code of it: the callback of a subscriber, the lambda that
`CreatePublisher` makes, and both of a provider or consumer. -/
theorem C102_created {σ σ1 : St} (h : Reachable σ) {b l : Nat} :
    (∀ f, step σ (.createSub b (some f)) = .to σ1 → f.lib = some l → HasCode σ1 σ.n l) ∧
    (step σ (.createPub b (some l)) = .to σ1 → HasCode σ1 σ.n l) ∧
    (∀ fn, step σ (.createAct b fn (some l)) = .to σ1 → HasCode σ1 σ.n l ∧ HasCode σ1 (σ.n + 1) l) := by
  refine ⟨fun f hc hf => ?_, fun hc => ?_, fun fn hc => ?_⟩ <;> rcases step_to hc with ⟨y, hy, _⟩ | ⟨_, e⟩
  any_goals cases hy; done
  all_goals simp only [call] at e
  all_goals repeat' split at e
  all_goals cases e
  all_goals rename_i hh _ o ho
  all_goals have hn := lt_of_live h.inv ho
  · refine ⟨.sub (some f), ?_, by simp [Obj.code, hf]⟩
    simp only [St.hold, St.put, St.alloc]; rw [if_neg (by omega)]; simp
  · refine ⟨.pub (some (b, some l)), ?_, by simp [Obj.code]⟩
    simp only [St.hold, St.put, St.alloc]; rw [if_neg (by omega)]; simp
  · constructor
    · refine ⟨.sub (some ⟨[σ.n + 2], some l⟩), ?_, by simp [Obj.code]⟩
      simp only [St.hold, St.put, St.alloc]; rw [if_neg (by omega)]; simp; omega
    · refine ⟨.pub (some (b, some l)), ?_, by simp [Obj.code]⟩
      simp only [St.hold, St.put, St.alloc]; rw [if_neg (by omega)]; simp

-- a plugin (library 7) leaves its subscriber: the host cannot destroy its bus
example : outcome [.newRoot, .createSub 0 (some ⟨[], some 7⟩), .drop 1, .close 7, .drop 0, .destroy 0, .destroy 1]
    (fun _ => true) = none := by decide +kernel
-- a plugin leaves its publisher: the lambda of `CreatePublisher` is code of the plugin
example : outcome [.newRoot, .createPub 0 (some 7), .drop 1, .close 7, .drop 0, .destroy 0, .destroy 1]
    (fun _ => true) = none := by decide +kernel
-- the hypotheses of the teardown theorem
example : outcome [.newRoot, .createPub 0 (some 7), .drop 1, .close 7, .drop 0]
    (fun σ => σ.closed.contains 7 && σ.held.isEmpty && (List.range 2).all (fun i => match σ.obj i with
      | some o => o.fns.isEmpty | none => true) && (match σ.obj 1 with | some o => o.code.contains 7 | none => false)) =
    some true := by decide +kernel
-- a plugin leaves its action provider: destroying the bus is defined, only because the provider leaks
example : outcome [.newRoot, .createAct 0 (some ⟨[], some 7⟩) (some 7), .drop 3, .close 7, .drop 0, .destroy 0]
    (fun σ => σ.settled && (σ.obj 3).isSome && (σ.obj 0).isNone) = some true := by decide +kernel
-- but a message that reaches it before is undefined
example : outcome [.newRoot, .createAct 0 (some ⟨[], some 7⟩) (some 7), .drop 3, .close 7, .deliver 0 1 0]
    (fun _ => true) = none := by decide +kernel
-- a plugin that deletes what it created leaves nothing
example : outcome [.newRoot, .createSub 0 (some ⟨[], some 7⟩), .createPub 0 (some 7), .delete 0 1, .delete 0 2, .drop 1,
    .destroy 1, .drop 2, .destroy 2, .close 7, .drop 0, .destroy 0]
    (fun σ => (List.range 3).all (fun i => (σ.obj i).isNone)) = some true := by decide +kernel

/-! ## C103: rules that suffice -/

/-- A careful program is always defined: it closes a library only when no object contains code of it any more, and
publishes, requests and responds only while it holds the bus. It need not do anything else in any order. -/
theorem C103_careful (as : List Act) (h : AllCareful init as) : exec init as ≠ .ub :=
  careful_exec as init inv_init (fun x o hx => by cases hx) h

/-- `DeleteSubscriber` and `DeletePublisher` remove the code of the caller from the object, so that the library may be
closed. -/
theorem C103_delete {σ σ' : St} {b p l : Nat} (hs : step σ (.delete b p) = .to σ') : ¬ HasCode σ' p l := by
  rcases step_to hs with ⟨y, hy, _⟩ | ⟨_, e⟩
  · cases hy
  · simp only [call] at e
    repeat' split at e
    all_goals cases e
    all_goals
      rename_i _ _ _ bo old hb hp hst
      have hpb : p ≠ b := by intro e; subst e; rw [hb] at hp; cases hp
      rintro ⟨o, ho, hc⟩
      simp only [St.put] at ho
      rw [if_neg hpb] at ho
      simp only [if_true] at ho
      cases ho
      cases hc

-- a careful program with everything in it
example : AllCareful init [.newRoot, .createChild 0, .createSub 1 (some ⟨[], some 7⟩), .delete 1 2, .drop 2, .destroy 2,
    .close 7] := by
  simp only [AllCareful, Careful, true_and]
  intro σ1 e1 σ2 e2 σ3 e3 σ4 e4 σ5 e5 σ6 e6
  have e : exec init [.newRoot, .createChild 0, .createSub 1 (some ⟨[], some 7⟩), .delete 1 2, .drop 2, .destroy 2] = .to σ6 := by
    simp only [exec, e1, e2, e3, e4, e5, e6]
  refine ⟨?_, fun _ _ => trivial⟩
  have hb : outcome [.newRoot, .createChild 0, .createSub 1 (some ⟨[], some 7⟩), .delete 1 2, .drop 2, .destroy 2]
      (fun σ => (List.range σ.n).all (fun i => match σ.obj i with | some o => o.code.isEmpty | none => true)) = some true := by
    decide +kernel
  simp only [outcome, e, Option.some.injEq, List.all_eq_true, List.mem_range] at hb
  have inv : Inv σ6 := inv_exec inv_init e
  rintro x ⟨o, ho, hc⟩
  have hn : x < σ6.n := by
    apply Nat.lt_of_not_le; intro hn; rw [inv.fresh x hn] at ho; cases ho
  have := hb x hn
  rw [ho] at this
  simp only [List.isEmpty_iff] at this
  rw [this] at hc; cases hc

end LP.Life
