import Verif.Lemma.Observe
/-! # C01, C02, C23: copying datagrams -/
namespace LP
open Heap

/-! ## C01 -/

/-- `Copy()` returns a datagram denoting the same tree, made of new objects only, and changes no existing object. The
graph may share sub-datagrams. -/
theorem C01_copy_faithful {h : Heap} {t : Tree} {a : Nat} (ht : Rep h (fun x => x < h.next) t a) {n : Nat} (hn : t.depth ≤ n) :
    ∃ c h', copy n a h = .ok c h' ∧ (∀ x, x < h.next → h'.node x = h.node x) ∧
      Rep h' (fun x => h.next ≤ x ∧ x < h'.next) t c := by
  obtain ⟨c, h', hr, hext, hrep⟩ := copy_builds t n h _ a hn (fun _ p => p) ht
  exact ⟨c, h', hr, hext.2, hrep⟩

/-- The Datagram copy constructor: a new datagram with the same content, nothing shared, nothing else changed. -/
theorem C01_copyCtor_faithful {h : Heap} {t : Tree} {a : Nat} (ht : Rep h (fun x => x < h.next) t a) :
    ∃ c h', Datagram.copyCtor a h = .ok c h' ∧ (∀ x, x < h.next → h'.node x = h.node x) ∧
      Rep h' (fun x => h.next ≤ x ∧ x < h'.next) t c := by
  have hex := ext_alloc h Node.empty
  have hy1 : Rep { (h.put h.next Node.empty) with next := h.next + 1 } (fun z => z < h.next + 1) t a :=
    Rep.carry ht hex.1 (fun z hz _ => hex.2 z hz)
  have hd := Rep.depth_next hy1
  obtain ⟨c, h1, hr, hext, hrep⟩ := copy_builds t (h.next + 1 + 1) { (h.put h.next Node.empty) with next := h.next + 1 } _ a
    (by simp only at hd; omega) (fun _ p => p) hy1
  have hc := Rep.mem hrep
  have hne : h.next ≠ c := by have := hc.1; simp only at this; omega
  refine ⟨h.next, (h1.put h.next (h1.node c)).put c Node.empty, ?_, ?_, ?_⟩
  · simp only [Datagram.copyCtor, M.bind_run, alloc_run, Datagram.copyAll, hr, Datagram.assignFromTemp, M.modify_run, M.pure_run]
  · intro x hx
    have h1 : x ≠ c := by have := hc.1; simp only at this; omega
    have h2 : x ≠ h.next := by omega
    simp only [put_node, h1, h2, if_false]
    rw [hext.2 x (by simp only; omega), hex.2 x hx]
  · refine Rep.moveRoot hrep ⟨Nat.le_refl _, ?_⟩ ?_ ?_
    · have := hext.1; simp only [put_next] at this ⊢; omega
    · simp [hne]
    · intro y hy hyc
      have h2 : y ≠ h.next := by have := hy.1; simp only at this; omega
      refine ⟨⟨by have := hy.1; simp only at this; omega, hy.2⟩, by simp [hyc, h2]⟩

/-- Datagram assignment `x = y`: afterwards `x` denotes what `y` denoted, through `x` itself and new objects only, and no
existing object other than `x` changed. `x` may be a part of `y` or the other way round. -/
theorem C01_assign_faithful {h : Heap} {t : Tree} {x y : Nat} (hx : x < h.next) (ht : Rep h (fun z => z < h.next) t y) :
    ∃ h', Datagram.assign x y h = .ok () h' ∧ (∀ z, z < h.next → z ≠ x → h'.node z = h.node z) ∧
      Rep h' (fun z => z = x ∨ h.next ≤ z ∧ z < h'.next) t x := by
  have hd := Rep.depth_next ht
  obtain ⟨c, h1, hr, hext, hrep⟩ := copy_builds t (h.next + 1) h _ y (by omega) (fun _ p => p) ht
  have hc := Rep.mem hrep
  have hne : x ≠ c := by have := hc.1; omega
  refine ⟨(h1.put x (h1.node c)).put c Node.empty, ?_, ?_, ?_⟩
  · simp only [Datagram.assign, M.bind_run, Datagram.copyAll, hr, Datagram.assignFromTemp, M.modify_run]
  · intro z hz hzx
    have h1 : z ≠ c := by have := hc.1; omega
    simp only [put_node, h1, hzx, if_false]
    exact hext.2 z hz
  · refine Rep.moveRoot hrep (Or.inl rfl) ?_ ?_
    · simp [hne]
    · intro z hz hzc
      have h2 : z ≠ x := by have := hz.1; omega
      exact ⟨Or.inr hz, by simp [hzc, h2]⟩

namespace Ex
/-- Object 0 is a dictionary whose entries `a` and `b` share object 1; object 2 is a list holding 0 and 3. -/
def shared : Heap := ⟨4, fun a => if a = 0 then ⟨.dict, [(bs "a", some 1), (bs "b", some 1)], [], none⟩
  else if a = 1 then ⟨.value, [], [], some (.int 7)⟩
  else if a = 2 then ⟨.list, [], [some 0, some 3], none⟩ else Node.empty⟩
/-- What object 2 denotes. -/
def sharedTree : Tree := .list [.dict [(bs "a", .value (.int 7)), (bs "b", .value (.int 7))], .empty]

theorem shared_rep : Rep shared (fun x => x < shared.next) sharedTree 2 := by
  refine ⟨by decide, _, rfl, 0, _, rfl, ⟨by decide, _, rfl, ?_, ?_⟩, 3, _, rfl, ⟨by decide, rfl⟩, rfl⟩
  · unfold Dict.Sorted; decide
  · exact ⟨1, _, rfl, ⟨by decide, rfl⟩, 1, _, rfl, ⟨by decide, rfl⟩, rfl⟩
end Ex

example : ∃ c h', copy 5 2 Ex.shared = .ok c h' ∧ (∀ x, x < 4 → h'.node x = Ex.shared.node x) ∧
    Rep h' (fun x => 4 ≤ x ∧ x < h'.next) Ex.sharedTree c :=
  C01_copy_faithful Ex.shared_rep (by decide)
example : ∃ c h', Datagram.copyCtor 2 Ex.shared = .ok c h' ∧ (∀ x, x < 4 → h'.node x = Ex.shared.node x) ∧
    Rep h' (fun x => 4 ≤ x ∧ x < h'.next) Ex.sharedTree c := C01_copyCtor_faithful Ex.shared_rep
-- the whole assigned to a shared part of itself
example : ∃ h', Datagram.assign 1 2 Ex.shared = .ok () h' ∧ (∀ z, z < 4 → z ≠ 1 → h'.node z = Ex.shared.node z) ∧
    Rep h' (fun z => z = 1 ∨ 4 ≤ z ∧ z < h'.next) Ex.sharedTree 1 := C01_assign_faithful (by decide) Ex.shared_rep

/-! ## C02 -/

/-- Everything done through handles of the copy's side leaves every observation of the other variables unchanged. The
copy's side `L` is the new variable `x` and any variable not yet in scope; it may also read the other side. -/
theorem C02_copy_does_not_leak {s : DState} (hs : Reachable s) {L : Nat → Prop} {x y : Nat} {prog : List Cmd}
    (hL : ∀ v, L v → s.env v = none) (hx : L x) (hprog : ∀ c ∈ prog, Confined L c) (hsound : ∀ c ∈ prog, c.Sound) :
    ∃ s', Cmd.runAll (.copyCtor x y :: prog) s = some s' ∧
      (∀ pd po q z, ¬ L z → observe pd po q s' z = observe pd po q s z) ∧
      (∀ z w, ¬ L z → ¬ L w → observeEq s' z w = observeEq s z w) := by
  have inv := hs.inv
  have hsep : Separated L s := by
    intro v w a b z hv _ ha; rw [hL v hv] at ha; cases ha
  have hconf : ∀ c ∈ Cmd.copyCtor x y :: prog, Confined L c := by
    intro c hc
    simp only [List.mem_cons] at hc
    rcases hc with rfl | hc
    · exact ⟨by simp [Cmd.writes], by simp [Cmd.binds]; exact hx⟩
    · exact hprog c hc
  obtain ⟨s', hr, inv'⟩ := runAll_inv (.copyCtor x y :: prog) inv (by
    intro c hc
    simp only [List.mem_cons] at hc
    rcases hc with rfl | hc
    · trivial
    · exact hsound c hc)
  obtain ⟨_, _, hdoc⟩ := confined_docs inv hsep hconf hr
  refine ⟨s', hr, ?_, ?_⟩
  · intro pd po q z hz
    obtain ⟨henv, hrep⟩ := hdoc z hz
    cases hb : s.env z with
    | none => simp [observe, henv, hb]
    | some b =>
      obtain ⟨t, ht⟩ := rep_exists inv.wf (inv.valid z b hb)
      rw [observe_rep pd po q hb ht, observe_rep pd po q (henv.trans hb) (hrep b t hb ht)]
  · intro z w hz hw
    obtain ⟨henv, hrep⟩ := hdoc z hz
    obtain ⟨henv', hrep'⟩ := hdoc w hw
    cases hb : s.env z with
    | none => simp [observeEq, henv, hb]
    | some b =>
      cases hc : s.env w with
      | none => simp [observeEq, henv, hb, henv', hc]
      | some c =>
        obtain ⟨t, ht⟩ := rep_exists inv.wf (inv.valid z b hb)
        obtain ⟨u, hu⟩ := rep_exists inv.wf (inv.valid w c hc)
        obtain ⟨r, hr1, hr2⟩ := observeEq_rep hb hc ht hu
        obtain ⟨r', hr1', hr2'⟩ := observeEq_rep (henv.trans hb) (henv'.trans hc) (hrep b t hb ht) (hrep' c u hc hu)
        rw [hr1, hr1']
        have : r = r' := by rw [Bool.eq_iff_iff, hr2, hr2']
        rw [this]

/-- Conversely, whatever is done afterwards through any handles other than the copy itself, the copy `x` keeps showing
what `y` showed when it was copied. -/
theorem C02_original_does_not_leak {s : DState} (hs : Reachable s) {x y : Nat} {prog : List Cmd}
    (hx : s.env x = none) (hy : s.env y ≠ none) (hprog : ∀ c ∈ prog, Confined (fun v => v ≠ x) c)
    (hsound : ∀ c ∈ prog, c.Sound) :
    ∃ s', Cmd.runAll (.copyCtor x y :: prog) s = some s' ∧
      ∀ pd po q, observe pd po q s' x = observe pd po q s y := by
  have inv := hs.inv
  obtain ⟨a, ha⟩ := Option.ne_none_iff_exists'.mp hy
  obtain ⟨t, ht⟩ := rep_exists inv.wf (inv.valid y a ha)
  obtain ⟨h1, hr1, w1, hext, hrep1, _⟩ := copyCtor_spec inv.wf ht
  -- the state right after the copy
  have hrun1 : Cmd.run (.copyCtor x y) s = .ok () ⟨h1, fun z => if z = x then some s.heap.next else s.env z⟩ := by
    simp only [Cmd.run, Cmd.withVar, ha, Cmd.bindVar, hr1]
  have hsep0 : Separated (fun v => v = x) s := by
    intro v w a b z hv _ ha; rw [hv, hx] at ha; cases ha
  obtain ⟨inv1, hsep1, _⟩ := confined_docs (prog := [.copyCtor x y]) (s' := ⟨h1, fun z => if z = x then some s.heap.next else s.env z⟩) inv hsep0
    (by intro c hc; simp only [List.mem_singleton] at hc; subst hc; exact ⟨by simp [Cmd.writes], by simp [Cmd.binds]⟩)
    (by simp only [Cmd.runAll, hrun1])
  have hsep1' : Separated (fun v => v ≠ x) ⟨h1, fun z => if z = x then some s.heap.next else s.env z⟩ := by
    intro v w a b z hv hw ha hb h1 h2
    simp only [ne_eq, Decidable.not_not] at hw
    exact hsep1 w v b a z hw hv hb ha h2 h1
  obtain ⟨s', hr', inv'⟩ := runAll_inv prog inv1 hsound
  obtain ⟨_, _, hdoc⟩ := confined_docs inv1 hsep1' hprog hr'
  obtain ⟨henv, hrep⟩ := hdoc x (by simp)
  refine ⟨s', by simp only [Cmd.runAll, hrun1, hr'], ?_⟩
  intro pd po q
  have hx1 : (DState.mk h1 fun z => if z = x then some s.heap.next else s.env z).env x = some s.heap.next := by simp
  rw [observe_rep pd po q ha ht, observe_rep pd po q (henv.trans hx1) (hrep _ t hx1 hrep1)]

/-- Two sides that share nothing stay apart under any use of one side, including copying from the other side
(`x = y` with `x` on this side), and the other side's observations stay unchanged. -/
theorem C02_sides_stay_apart {s s' : DState} (hs : Reachable s) {L : Nat → Prop} {prog : List Cmd} (hsep : Separated L s)
    (hprog : ∀ c ∈ prog, Confined L c) (hr : Cmd.runAll prog s = some s') :
    Separated L s' ∧ ∀ pd po q z, ¬ L z → observe pd po q s' z = observe pd po q s z := by
  have inv := hs.inv
  obtain ⟨_, hsep', hdoc⟩ := confined_docs inv hsep hprog hr
  refine ⟨hsep', ?_⟩
  intro pd po q z hz
  obtain ⟨henv, hrep⟩ := hdoc z hz
  cases hb : s.env z with
  | none => simp [observe, henv, hb]
  | some b =>
    obtain ⟨t, ht⟩ := rep_exists inv.wf (inv.valid z b hb)
    rw [observe_rep pd po q hb ht, observe_rep pd po q (henv.trans hb) (hrep b t hb ht)]

namespace Ex
/-- `Datagram d; Datagram e = d["k"]; e = 5; d["l"].Add(...)`: variable 0 is `d`, 1 is a handle on a part of it. -/
def prog0 : List Cmd := [.make 0 .empty, .indexKey 1 0 (bs "k"), .assignVal 1 (.int 5), .indexKey 2 0 (bs "l"), .addVal 2 (.bool true)]
end Ex

-- a program that goes on to modify the copy (variable 7) through handles of its own, and assigns from the original
example : ∃ s, Cmd.runAll Ex.prog0 Cmd.init = some s ∧ ∃ s', Cmd.runAll
    (.copyCtor 7 0 :: [.indexKey 8 7 (bs "k"), .assign 8 0, .indexKey 9 7 (bs "l"), .clear 9, .removeKey 7 (bs "l"), .assign 7 1]) s = some s' ∧
    ∀ pd po q z, z < 7 → observe pd po q s' z = observe pd po q s z := by
  obtain ⟨s, hr, inv⟩ := runAll_inv Ex.prog0 Inv.init (by simp [Ex.prog0, Cmd.Sound])
  refine ⟨s, hr, ?_⟩
  have hbig : ∀ v, 7 ≤ v → s.env v = none := by
    intro v hv
    have : Cmd.runAll Ex.prog0 Cmd.init = some s := hr
    simp only [Ex.prog0, Cmd.runAll] at this
    cases h : s.env v with
    | none => rfl
    | some b =>
      exfalso
      have h2 : ∀ s', Cmd.runAll Ex.prog0 Cmd.init = some s' → s'.env v = none := by
        intro s' hs'
        have hsep : Separated (fun w => w < 7) Cmd.init := by intro a b c d e _ _ h; simp [Cmd.init] at h
        obtain ⟨_, _, hd⟩ := confined_docs (L := fun w => w < 7) Inv.init hsep (by
          intro c hc; simp only [Ex.prog0, List.mem_cons, List.not_mem_nil, or_false] at hc
          rcases hc with rfl | rfl | rfl | rfl | rfl <;> constructor <;> simp [Cmd.writes, Cmd.binds]) hs'
        rw [(hd v (by omega)).1]; rfl
      rw [h2 s hr] at h; cases h
  obtain ⟨s', hr', hobs, _⟩ := C02_copy_does_not_leak (L := fun v => 7 ≤ v) (x := 7) (y := 0)
    (prog := [.indexKey 8 7 (bs "k"), .assign 8 0, .indexKey 9 7 (bs "l"), .clear 9, .removeKey 7 (bs "l"), .assign 7 1])
    ⟨_, hr⟩ hbig (by decide) (by
      intro c hc; simp only [List.mem_cons, List.not_mem_nil, or_false] at hc
      rcases hc with rfl | rfl | rfl | rfl | rfl | rfl <;> constructor <;> simp [Cmd.writes, Cmd.binds])
    (by simp [Cmd.Sound])
  exact ⟨s', hr', fun pd po q z hz => hobs pd po q z (by omega)⟩

/-! ## C23 -/

/-- Copying a graph that leads to a cycle never completes, whatever the recursion bound. -/
theorem C23_cyclic_copy_never_returns {h : Heap} (hcl : Closed h) {a : Nat} (ha : a < h.next) (hc : LeadsToCycle h a) (n : Nat) :
    ∀ c h', copy n a h ≠ .ok c h' := fun c h' => copy_stuck hcl n a ha hc h c h' (Keeps.refl h)

/-- If moreover nothing below is null, the copy exhausts every recursion bound (no exception, no other failure). -/
theorem C23_cyclic_copy_exhausts_stack {h : Heap} (hcl : Closed h) {a : Nat} (ha : a < h.next) (hc : LeadsToCycle h a)
    (hn : NoNulls h a) (n : Nat) : copy n a h = .fuel := by
  rcases copy_total hcl n a ha hn h (Keeps.refl h) with ⟨c, h', hr, _⟩ | hr
  · exact absurd hr (copy_stuck hcl n a ha hc h c h' (Keeps.refl h))
  · exact hr

/-- Without a cycle below (and without nulls) every sufficiently large bound suffices, so the cycle is the only cause. -/
theorem C23_acyclic_copy_returns {h : Heap} {t : Tree} {a : Nat} (ht : Rep h (fun x => x < h.next) t a) (n : Nat) (hn : h.next ≤ n) :
    ∃ c h', copy n a h = .ok c h' := by
  obtain ⟨c, h', hr, _⟩ := copy_builds t n h _ a (Nat.le_trans (Rep.depth_next ht) hn) (fun _ p => p) ht
  exact ⟨c, h', hr⟩

namespace Ex
/-- A list (object 0) that holds a dictionary (object 1) whose entry is the list again. -/
def cyclic : Heap := ⟨2, fun a => if a = 0 then ⟨.list, [], [some 1], none⟩ else ⟨.dict, [(bs "up", some 0)], [], none⟩⟩
theorem cyclic_closed : Closed cyclic := by
  intro a ha b hb
  have ha2 : a < 2 := ha
  show b < 2
  by_cases h0 : a = 0
  · subst h0; simp [cyclic, Node.kids] at hb; omega
  · simp [cyclic, h0, Node.kids] at hb; omega
theorem cyclic_cycle : LeadsToCycle cyclic 0 := ⟨0, 1, .refl, by simp [cyclic, Node.kids], .step .refl (by simp [cyclic, Node.kids])⟩
theorem cyclic_noNulls : NoNulls cyclic 0 := by
  intro b _
  by_cases h0 : b = 0 <;> simp [cyclic, h0, Node.kids]
end Ex

example (n : Nat) : copy n 0 Ex.cyclic = .fuel :=
  C23_cyclic_copy_exhausts_stack Ex.cyclic_closed (by decide) Ex.cyclic_cycle Ex.cyclic_noNulls n
example (n : Nat) : ∀ c h', copy n 0 Ex.cyclic ≠ .ok c h' := C23_cyclic_copy_never_returns Ex.cyclic_closed (by decide) Ex.cyclic_cycle n

end LP
