import Verif.Lemma.Interleave
import Verif.Lemma.Exchange
/-!
# C119: what a thread computes with its Datagrams does not depend on the interleaving
-/
namespace LP.Interleave

/-- Everything a client can see of two variables: every reading call through every chain of `operator[]`. -/
def Alike (s s' : DState) (z : Nat) : Prop :=
  ∀ pd po q p, observeAt pd po q p s z = observeAt pd po q p s' z

theorem alike_of {s s' : DState} {st st' : Store} (h : Sim s st) (h' : Sim s' st') {z : Nat} (e : st z = st' z) : Alike s s' z := by
  intro pd po q p
  cases hz : st z with
  | none =>
    rw [hz] at e
    simp only [observeAt, (h.dom z).2 hz, (h'.dom z).2 e.symm]
  | some d =>
    rw [hz] at e
    rw [Holds.observeAt ⟨h.wf, fun x a hx => (h.root x a hx).1⟩ (h.holds.2 hz),
      Holds.observeAt ⟨h'.wf, fun x a hx => (h'.root x a hx).1⟩ (h'.holds.2 e.symm)]

/-- Two runs of any programs of any number of threads. If in both thread `t` executes the same statements and the Datagrams
it copies from others have the same content at that moment, then all its statements end in the same way (in particular with
the same exceptions), and in the end it sees the same in all its variables: what the other threads do, and when, makes no
difference, nor does it matter where things lie in memory. -/
theorem C119_determined {own : Nat → Nat} {t : Nat} {as bs : List (Nat × Stmt)} {h : List Ev}
    (ha : ∀ p ∈ as, Allowed own p.1 p.2) (hb : ∀ p ∈ bs, Allowed own p.1 p.2)
    (hha : History own t Cmd.init as h) (hhb : History own t Cmd.init bs h) :
    ∃ s es s' es', Stmt.runAll (as.map Prod.snd) Cmd.init = some (s, es) ∧
      Stmt.runAll (bs.map Prod.snd) Cmd.init = some (s', es') ∧ outcomes t as es = outcomes t bs es' ∧
      ∀ z, own z = t → Alike s s' z := by
  obtain ⟨s, es, st, k1, k2, k3, k4⟩ := history_sim as Sim.init (l := fun _ => none) (fun _ _ => rfl) ha hha
  obtain ⟨s', es', st', m1, m2, m3, m4⟩ := history_sim bs Sim.init (l := fun _ => none) (fun _ _ => rfl) hb hhb
  exact ⟨s, es, s', es', k1, m1, k4.trans m4.symm, fun z hz => alike_of k2 m2 ((k3 z hz).symm.trans (m3 z hz))⟩

/-- A thread that receives nothing behaves as if it were alone. -/
theorem C119_alone {own : Nat → Nat} {t : Nat} {as : List (Nat × Stmt)} (ha : ∀ p ∈ as, Allowed own p.1 p.2)
    (ht : ∀ p ∈ as, p.1 = t → ∀ v ∈ vars p.2, own v = t) :
    ∃ s es s' es', Stmt.runAll (as.map Prod.snd) Cmd.init = some (s, es) ∧
      Stmt.runAll ((as.filter (fun p => p.1 = t)).map Prod.snd) Cmd.init = some (s', es') ∧ outcomes t as es = es' ∧
      ∀ z, own z = t → Alike s s' z := by
  have hist : ∀ (as : List (Nat × Stmt)) {s : DState} {st : Store}, Sim s st →
      (∀ p ∈ as, p.1 = t → ∀ v ∈ vars p.2, own v = t) →
      History own t s as ((as.filter (fun p => p.1 = t)).map (fun p => .does p.2)) := by
    intro as
    induction as with
    | nil => intro s st _ _; rfl
    | cons p as ih =>
      intro s st hs hp
      obtain ⟨u, c⟩ := p
      obtain ⟨s1, hr, hs1⟩ := hs.step c
      have hrun : Stmt.runAll [c] s = some (s1, [(st.step c).2]) := by
        simp only [Stmt.runAll, hr]
        cases (st.step c).2 <;> rfl
      have hi := ih hs1 (fun p hm => hp p (List.mem_cons_of_mem _ hm))
      refine ⟨s1, _, hrun, ?_⟩
      by_cases hu : u = t
      · rw [if_pos hu]
        simp only [List.filter_cons, hu, decide_true, if_true, List.map_cons]
        exact ⟨trivial, hp (u, c) (by simp) hu, hi⟩
      · rw [if_neg hu]
        simp only [List.filter_cons, hu, decide_false]
        exact hi
  have ff : ∀ as : List (Nat × Stmt), (as.filter (fun p => p.1 = t)).filter (fun p => p.1 = t) = as.filter (fun p => p.1 = t) := by
    intro as; rw [List.filter_filter]; simp
  obtain ⟨s, es, s', es', k1, k2, k3, k4⟩ := C119_determined (bs := as.filter (fun p => p.1 = t)) ha
    (fun p hp => ha p (List.mem_filter.1 hp).1) (hist as Sim.init ht)
    (by have := hist (as.filter (fun p => p.1 = t)) Sim.init (fun p hp => ht p (List.mem_filter.1 hp).1); rwa [ff] at this)
  refine ⟨s, es, s', es', k1, k2, ?_, k4⟩
  rw [k3]
  obtain ⟨s2, hr2, _⟩ := steps_sim ((as.filter (fun p => p.1 = t)).map Prod.snd) Sim.init
  rw [hr2] at k2
  cases k2
  have hall : ∀ (bs : List (Nat × Stmt)) (st : Store), (∀ p ∈ bs, p.1 = t) →
      outcomes t bs (st.steps (bs.map Prod.snd)).2 = (st.steps (bs.map Prod.snd)).2 := by
    intro bs
    induction bs with
    | nil => intro st _; rfl
    | cons p bs ih =>
      intro st hp
      have h1 := hp p (by simp)
      have := ih (st.step p.2).1 (fun p hm => hp p (List.mem_cons_of_mem _ hm))
      simp only [outcomes, List.map_cons, Store.steps, List.zip_cons_cons, List.filter_cons, h1, decide_true, if_true] at this ⊢
      rw [this]
  exact hall _ _ (fun p hp => by simpa using (List.mem_filter.1 hp).2)

/-- Statements of different threads on their own Datagrams commute: neighbouring statements of two threads may be exchanged
anywhere in a program without any thread noticing. -/
theorem C119_commute {own : Nat → Nat} {as bs : List (Nat × Stmt)} {u v : Nat} {c d : Stmt} (huv : u ≠ v)
    (ha : ∀ p ∈ as ++ (u, c) :: (v, d) :: bs, ∀ x ∈ vars p.2, own x = p.1) (t : Nat) :
    ∃ s es s' es', Stmt.runAll ((as ++ (u, c) :: (v, d) :: bs).map Prod.snd) Cmd.init = some (s, es) ∧
      Stmt.runAll ((as ++ (v, d) :: (u, c) :: bs).map Prod.snd) Cmd.init = some (s', es') ∧
      outcomes t (as ++ (u, c) :: (v, d) :: bs) es = outcomes t (as ++ (v, d) :: (u, c) :: bs) es' ∧
      ∀ z, own z = t → Alike s s' z := by
  have hb : ∀ p ∈ as ++ (v, d) :: (u, c) :: bs, ∀ x ∈ vars p.2, own x = p.1 := by
    intro p hp; apply ha p; simp only [List.mem_append, List.mem_cons] at hp ⊢; grind
  have hf : (as ++ (u, c) :: (v, d) :: bs).filter (fun p => p.1 = t) = (as ++ (v, d) :: (u, c) :: bs).filter (fun p => p.1 = t) := by
    simp only [List.filter_append, List.filter_cons]
    by_cases h1 : u = t <;> by_cases h2 : v = t <;> simp [h1, h2]
    exact absurd (h1.trans h2.symm) huv
  obtain ⟨s, es, s1, es1, k1, k2, k3, k4⟩ := C119_alone (t := t) (fun p hp => .inl (ha p hp)) (fun p hp e x hx => (ha p hp x hx).trans e)
  obtain ⟨s', es', s2, es2, m1, m2, m3, m4⟩ := C119_alone (t := t) (fun p hp => .inl (hb p hp)) (fun p hp e x hx => (hb p hp x hx).trans e)
  rw [← hf, k2] at m2
  cases m2
  refine ⟨s, es, s', es', k1, m1, k3.trans m3.symm, fun z hz pd po q p => ?_⟩
  rw [k4 z hz, m4 z hz]

/-! ## Examples -/

/-- Variables 0–9 belong to thread 0, 10–19 to thread 1, and so on. -/
def owner (v : Nat) : Nat := v / 10

/-- Thread 0 builds a document and fails to remove from it, thread 1 copies it at some moment and changes its copy. -/
def one : List (Nat × Stmt) :=
  [(0, .decl 0 .empty), (1, .decl 10 .empty), (0, .setVal 0 [.key (bs "a")] (.int 1)), (1, .declCopy 11 0),
   (0, .removeKey 0 [] (bs "b")), (1, .setVal 11 [.key (bs "a")] (.int 2)), (0, .setVal 0 [.key (bs "c")] (.int 3))]

/-- The same two threads, interleaved otherwise, with a third one. -/
def other : List (Nat × Stmt) :=
  [(2, .declVal 20 (.str (bs "x"))), (0, .decl 0 .empty), (0, .setVal 0 [.key (bs "a")] (.int 1)), (0, .removeKey 0 [] (bs "b")),
   (2, .declCopy 21 0), (1, .decl 10 .empty), (1, .declCopy 11 0), (2, .clear 21 []), (1, .setVal 11 [.key (bs "a")] (.int 2)),
   (0, .setVal 0 [.key (bs "c")] (.int 3))]

/-- What thread 1 does and receives in both. -/
def hist1 : List Ev :=
  [.does (.decl 10 .empty), .got 11 (.dict [(bs "a", .value (.int 1))]), .does (.setVal 11 [.key (bs "a")] (.int 2))]

theorem one_allowed : ∀ p ∈ one, Allowed owner p.1 p.2 := by
  intro p hp
  simp only [one, List.mem_cons, List.not_mem_nil, or_false] at hp
  rcases hp with rfl | rfl | rfl | rfl | rfl | rfl | rfl <;>
    first | (left; simp [vars, owner]; done) | exact .inr ⟨_, _, rfl, by simp [owner]⟩

theorem other_allowed : ∀ p ∈ other, Allowed owner p.1 p.2 := by
  intro p hp
  simp only [other, List.mem_cons, List.not_mem_nil, or_false] at hp
  rcases hp with rfl | rfl | rfl | rfl | rfl | rfl | rfl | rfl | rfl | rfl <;>
    first | (left; simp [vars, owner]; done) | exact .inr ⟨_, _, rfl, by simp [owner]⟩

example : History owner 1 Cmd.init one hist1 ∧ History owner 1 Cmd.init other hist1 := by
  have hab : bs "a" ≠ bs "b" := by decide +kernel
  refine ⟨of_docs _ Sim.init ?_, of_docs _ Sim.init ?_⟩ <;>
    simp [Docs, one, other, hist1, vars, owner, Store.step, Store.set, Store.edit, Tree.editAt, Tree.eSet, Tree.eRemoveKey,
      Tree.asDict, Tree.ofType, Dict.find, Dict.insert, hab]

/-- Two threads that exchange nothing, one of which fails. -/
example : (∀ p ∈ ([(0, .decl 0 .list), (1, .decl 10 .dict), (0, .clear 0 []), (1, .removeKey 10 [] (bs "k"))] : List (Nat × Stmt)),
      ∀ x ∈ vars p.2, owner x = p.1) ∧
    (Stmt.runAll [.decl 0 .list, .decl 10 .dict, .clear 0 [], .removeKey 10 [] (bs "k")] Cmd.init).map Prod.snd =
      some [none, none, none, some (.keyNotFound (bs "k"))] := by
  refine ⟨?_, by decide +kernel⟩
  intro p hp
  simp only [List.mem_cons, List.not_mem_nil, or_false] at hp
  rcases hp with rfl | rfl | rfl | rfl <;> simp [vars, owner]

end LP.Interleave
