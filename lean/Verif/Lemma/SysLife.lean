import Verif.Spec.SysLife
/-!
# A SysInfo instance after a history of calls
-/
namespace LP.SysLife
open LP.Bus (World BMsg)

/-- Among the subscribers of a bus, `n` have callback `k`, and those have topic `t`. -/
structure Has (w : World) (b k : Nat) (t : Str) (n : Nat) : Prop where
  count : ((w.bus b).subs.filter (fun s => (w.sub s).cb == some k)).length = n
  topic : ∀ s ∈ (w.bus b).subs, (w.sub s).cb = some k → (w.sub s).topic = t

/-- Subscribers exist and are listed once. -/
structure Tidy (w : World) (b : Nat) : Prop where
  old : ∀ s ∈ (w.bus b).subs, s < w.ns
  once : (w.bus b).subs.Nodup

/-- A subscriber was created. -/
structure Grows (w v : World) (b : Nat) (c : Option Nat) (t : Str) : Prop where
  ns : v.ns = w.ns + 1
  subs : (v.bus b).subs = (w.bus b).subs ++ [w.ns]
  cb : (v.sub w.ns).cb = c
  topic : (v.sub w.ns).topic = t
  rest : ∀ s, s ≠ w.ns → v.sub s = w.sub s

/-- Subscriber `s` was deleted. -/
structure Shrinks (w v : World) (b s : Nat) : Prop where
  ns : v.ns = w.ns
  subs : (v.bus b).subs = (w.bus b).subs.filter (fun i => i != s)
  cb : (v.sub s).cb = none
  rest : ∀ s', s' ≠ s → v.sub s' = w.sub s'

/-- The subscribers are as before. -/
structure Stays (w v : World) (b : Nat) : Prop where
  ns : v.ns = w.ns
  subs : (v.bus b).subs = (w.bus b).subs
  sub : v.sub = w.sub

variable {w v : World} {b k n s : Nat} {t t' : Str} {c : Option Nat}

theorem Grows.tidy (g : Grows w v b c t) (h : Tidy w b) : Tidy v b := by
  refine ⟨fun s hs => ?_, ?_⟩
  · rw [g.subs] at hs; rw [g.ns]
    rcases List.mem_append.1 hs with hs | hs
    · have := h.old s hs; omega
    · simp only [List.mem_singleton] at hs; omega
  · rw [g.subs, List.nodup_append]
    refine ⟨h.once, by simp, fun a ha b hb => ?_⟩
    simp only [List.mem_singleton] at hb
    have := h.old a ha; omega

theorem Grows.has (g : Grows w v b c t') (h : Tidy w b) (H : Has w b k t n) (ht : c = some k → t' = t) :
    Has v b k t (n + if c = some k then 1 else 0) := by
  have hne : ∀ s ∈ (w.bus b).subs, s ≠ w.ns := fun s hs e => by have := h.old s hs; omega
  constructor
  · rw [g.subs, List.filter_append, List.length_append, ← H.count]
    congr 1
    · congr 1
      apply List.filter_congr
      intro s hs
      rw [g.rest s (hne s hs)]
    · by_cases e : c = some k
      · rw [List.filter_cons_of_pos (by rw [g.cb, e]; simp), if_pos e]; rfl
      · rw [List.filter_cons_of_neg (by rw [g.cb]; simpa using e), if_neg e]; rfl
  · intro s hs hc
    rw [g.subs] at hs
    by_cases e : s = w.ns
    · subst e; rw [g.cb] at hc; rw [g.topic]; exact ht hc
    · rw [g.rest s e] at hc ⊢
      rcases List.mem_append.1 hs with hs | hs
      · exact H.topic s hs hc
      · simp only [List.mem_singleton] at hs; exact absurd hs e

theorem Shrinks.tidy (g : Shrinks w v b s) (h : Tidy w b) : Tidy v b :=
  ⟨fun s' hs => by rw [g.subs] at hs; rw [g.ns]; exact h.old s' (List.mem_filter.1 hs).1,
   by rw [g.subs]; exact h.once.sublist List.filter_sublist⟩

theorem Shrinks.topic (g : Shrinks w v b s) (H : Has w b k t n) : ∀ s' ∈ (v.bus b).subs, (v.sub s').cb = some k → (v.sub s').topic = t := by
  intro s' hs hc
  rw [g.subs] at hs
  by_cases e : s' = s
  · subst e; rw [g.cb] at hc; cases hc
  · rw [g.rest s' e] at hc ⊢
    exact H.topic s' (List.mem_filter.1 hs).1 hc

/-- Another one is deleted. -/
theorem Shrinks.keeps (g : Shrinks w v b s) (H : Has w b k t n) (hs : (w.sub s).cb ≠ some k) : Has v b k t n := by
  refine ⟨?_, g.topic H⟩
  rw [g.subs, List.filter_filter, ← H.count]
  congr 1
  apply List.filter_congr
  intro s' _
  by_cases e : s' = s
  · subst e; simp [g.cb, hs]
  · rw [g.rest s' e]; simp [e]

/-- One of them is deleted. -/
theorem Shrinks.loses (g : Shrinks w v b s) (h : Tidy w b) (H : Has w b k t (n + 1)) (hm : s ∈ (w.bus b).subs) (hs : (w.sub s).cb = some k) :
    Has v b k t n := by
  refine ⟨?_, g.topic H⟩
  rw [g.subs]
  have : ((w.bus b).subs.filter (fun i => i != s)).filter (fun i => (v.sub i).cb == some k) =
      ((w.bus b).subs.filter (fun i => (w.sub i).cb == some k)).erase s := by
    rw [List.Nodup.erase_eq_filter (h.once.sublist List.filter_sublist), List.filter_filter, List.filter_filter]
    apply List.filter_congr
    intro s' _
    by_cases e : s' = s
    · subst e; simp
    · rw [g.rest s' e, Bool.and_comm]
  rw [this, List.length_erase_of_mem (List.mem_filter.2 ⟨hm, by simp [hs]⟩), H.count]
  rfl

theorem Stays.tidy (g : Stays w v b) (h : Tidy w b) : Tidy v b := ⟨by rw [g.subs, g.ns]; exact h.old, by rw [g.subs]; exact h.once⟩

theorem Stays.has (g : Stays w v b) (H : Has w b k t n) : Has v b k t n :=
  ⟨by rw [g.subs, g.sub]; exact H.count, by rw [g.subs, g.sub]; exact H.topic⟩

/-- How many of the callbacks called for a message have number `k`. -/
theorem Has.calls (H : Has w b k t n) (ht : t ≠ bs "/**/*") (m : BMsg) :
    ((w.bus b).subs.filterMap (Bus.offer w m)).countP (fun c => c.cb == k) = if m.topic = t then n else 0 := by
  rw [← H.count]
  have hl := H.topic
  generalize (w.bus b).subs = l at hl
  induction l with
  | nil => simp
  | cons s l ih =>
    have ih := ih (fun s hs => hl s (List.mem_cons_of_mem _ hs))
    by_cases hc : (w.sub s).cb = some k
    · have htop := hl s List.mem_cons_self hc
      rw [List.filter_cons_of_pos (by simp [hc])]
      by_cases hm : m.topic = t
      · have : Bus.offer w m s = some ⟨s, k⟩ := by simp [Bus.offer, htop, hc, hm, antMatches]
        rw [List.filterMap_cons_some this, List.countP_cons, ih, if_pos hm, if_pos hm]
        simp
      · have : Bus.offer w m s = none := by simp [Bus.offer, htop, hm, antMatches, ht]
        rw [List.filterMap_cons_none this, ih, if_neg hm, if_neg hm]
    · rw [List.filter_cons_of_neg (by simp [hc]), ← ih]
      cases ho : Bus.offer w m s with
      | none => rw [List.filterMap_cons_none ho]
      | some c =>
        rw [List.filterMap_cons_some ho, List.countP_cons]
        have : c.cb ≠ k := by
          intro e
          unfold Bus.offer at ho
          split at ho
          · obtain ⟨k', hk, rfl⟩ := Option.map_eq_some_iff.1 ho
            simp only at e; subst e; exact hc hk
          · cases ho
        simp [this]

/-! ## The calls -/

/-- The callbacks when there is none of the instance's. -/
theorem callAll_none (m : BMsg) (σ : St) (cs : List Bus.Call) (h0 : cs.countP (fun c => c.cb == 0) = 0) (h1 : cs.countP (fun c => c.cb == 1) = 0) :
    callAll m cs σ = .to σ := by
  induction cs with
  | nil => rfl
  | cons c cs ih =>
    rw [List.countP_cons] at h0 h1
    have e0 : ¬c.cb = 0 := fun e => by simp [e] at h0
    have e1 : ¬c.cb = 1 := fun e => by simp [e] at h1
    simp only [callAll, if_neg e0, if_neg e1]
    exact ih (by omega) (by omega)

/-- The callbacks when there is none of the action provider's. -/
theorem callAll_log (m : BMsg) (σ : St) (cs : List Bus.Call) (h1 : cs.countP (fun c => c.cb == 1) = 0) : callAll m cs σ =
    if cs.countP (fun c => c.cb == 0) = 0 then .to σ else match textOf m.dg with
      | some s => if σ.alive then .to { σ with logged := σ.logged ++ List.replicate (cs.countP (fun c => c.cb == 0)) s } else .ub
      | none => .to { σ with escaped := σ.escaped + 1 } := by
  induction cs generalizing σ with
  | nil => rfl
  | cons c cs ih =>
    rw [List.countP_cons] at h1
    have e1 : ¬c.cb = 1 := fun e => by simp [e] at h1
    by_cases e0 : c.cb = 0
    · simp only [callAll, if_pos e0, List.countP_cons, e0]
      simp only [BEq.rfl, if_true, Nat.add_one_ne_zero, if_false]
      cases hs : textOf m.dg with
      | none => rfl
      | some s =>
        simp only
        split
        · rename_i ha
          rw [ih _ (by omega)]
          by_cases hz : cs.countP (fun c => c.cb == 0) = 0
          · simp [hz]
          · rw [if_neg hz, hs]
            simp only [ha, if_true]
            rw [List.replicate_succ, List.append_assoc, List.singleton_append]
        · rfl
    · simp only [callAll, if_neg e0, if_neg e1, List.countP_cons]
      rw [ih _ (by omega)]
      simp [e0]

/-- The callbacks when there is none of the first lambda. -/
theorem callAll_respond (m : BMsg) (σ : St) (cs : List Bus.Call) (h0 : cs.countP (fun c => c.cb == 0) = 0) : callAll m cs σ =
    if cs.countP (fun c => c.cb == 1) = 0 then .to σ else match Action.idOf m.dg with
      | some id => if σ.alive then .to { σ with responded := σ.responded ++ List.replicate (cs.countP (fun c => c.cb == 1)) id } else .ub
      | none => .to { σ with escaped := σ.escaped + 1 } := by
  induction cs generalizing σ with
  | nil => rfl
  | cons c cs ih =>
    rw [List.countP_cons] at h0
    have e0 : ¬c.cb = 0 := fun e => by simp [e] at h0
    by_cases e1 : c.cb = 1
    · simp only [callAll, if_neg e0, if_pos e1, List.countP_cons, e1]
      simp only [BEq.rfl, if_true, Nat.add_one_ne_zero, if_false]
      cases hid : Action.idOf m.dg with
      | none => rfl
      | some id =>
        simp only
        split
        · rename_i ha
          rw [ih _ (by omega)]
          by_cases hz : cs.countP (fun c => c.cb == 1) = 0
          · simp [hz]
          · rw [if_neg hz, hid]
            simp only [ha, if_true]
            rw [List.replicate_succ, List.append_assoc, List.singleton_append]
        · rfl
    · simp only [callAll, if_neg e0, if_neg e1, List.countP_cons]
      rw [ih _ (by omega)]
      simp [e1]

end LP.SysLife
