import Verif.Lemma.LampPost
import Verif.Spec.LampPost
/-! The loop over the plugin entries against its specification. -/
namespace LP.Host
open Heap
open Plugin (Out)

/-- The variable a note refers to. -/
def Note.var : Note Nat → Option Nat
  | .initialized _ x => some x
  | .started _ => none
  | .reported _ x => some x

/-- A note with its document. -/
def resolve (sto : Store) : Note Nat → Option (Note Tree)
  | .initialized n x => (sto x).map (.initialized n)
  | .started n => some (.started n)
  | .reported n x => (sto x).map (.reported n)

/-- The state is in order: `sto` are its documents, `ns` its notes, and no note refers to a variable from `vars` on or
to the variable `c`. -/
structure Keeps (c : Nat) (st : St) (sto : Store) (ns : List (Note Tree)) : Prop where
  sim : Sim st.data sto
  notes : st.notes.map (resolve sto) = ns.map some
  vars : ∀ n ∈ st.notes, ∀ x, n.var = some x → x < st.vars ∧ x ≠ c

theorem resolve_congr {sto sto' : Store} {n : Note Nat} (h : ∀ x, n.var = some x → sto x = sto' x) :
    resolve sto n = resolve sto' n := by
  cases n <;> simp_all [resolve, Note.var]

theorem Keeps.shows {c : Nat} {st : St} {sto : Store} {ns : List (Note Tree)} (h : Keeps c st sto ns) :
    Shows st (st.mgr, ns) := by
  refine ⟨rfl, by simpa using congrArg List.length h.notes, ?_⟩
  intro i a b ha hb
  have h1 : (st.notes.map (resolve sto))[i]? = (ns.map some)[i]? := by rw [h.notes]
  simp only at hb
  simp only [List.getElem?_map, ha, hb, Option.map_some, Option.some.injEq] at h1
  cases a with
  | initialized n x =>
    simp only [resolve, Option.map_eq_some_iff] at h1
    obtain ⟨t, h2, rfl⟩ := h1
    exact ⟨rfl, Sim.holds h.sim h2⟩
  | started n =>
    simp only [resolve, Option.some.injEq] at h1
    subst h1; rfl
  | reported n x =>
    simp only [resolve, Option.map_eq_some_iff] at h1
    obtain ⟨t, h2, rfl⟩ := h1
    exact ⟨rfl, Sim.holds h.sim h2⟩

/-- The documents of the variables that matter did not change. -/
theorem Keeps.change {c : Nat} {st : St} {sto sto' : Store} {ns : List (Note Tree)} (h : Keeps c st sto ns) {d : DState}
    {v : Nat} (hd : Sim d sto') (hv : st.vars ≤ v) (hsame : ∀ x, x < st.vars → x ≠ c → sto' x = sto x) :
    Keeps c { st with data := d, vars := v } sto' ns := by
  refine ⟨hd, ?_, fun n hn x hx => ?_⟩
  · rw [← h.notes]
    refine List.map_congr_left fun n hn => resolve_congr fun x hx => ?_
    exact hsame x (h.vars n hn x hx).1 (h.vars n hn x hx).2
  · have := h.vars n hn x hx
    exact ⟨Nat.lt_of_lt_of_le this.1 hv, this.2⟩

theorem Keeps.note {c : Nat} {st : St} {sto : Store} {ns : List (Note Tree)} (h : Keeps c st sto ns) (m : Plugin.Manager)
    {more : List (Note Nat)} {moreT : List (Note Tree)} (hr : more.map (resolve sto) = moreT.map some)
    (hv : ∀ n ∈ more, ∀ x, n.var = some x → x < st.vars ∧ x ≠ c) :
    Keeps c { st with mgr := m, notes := st.notes ++ more } sto (ns ++ moreT) := by
  refine ⟨h.sim, ?_, fun n hn x hx => ?_⟩
  · simp only [List.map_append, h.notes, hr]
  · rcases List.mem_append.1 hn with hn | hn
    · exact h.vars n hn x hx
    · exact hv n hn x hx

theorem instantiate_not_terminate (early : Bool) (p : Option Nat) (s : Plugin.TS) : Plugin.instantiate early p s ≠ .terminate := by
  intro h
  unfold Plugin.instantiate at h
  split at h
  · cases h
  · cases p with
    | none => cases h
    | some b =>
      dsimp only at h
      split at h <;> try cases h
      split at h
      · cases h
      · split at h <;> cases h

/-- A call of `InstantiatePlugin` against its specification. -/
theorem instantiatePlugin_spec {early : Bool} {type : Str} {c x : Nat} {st : St} {sto : Store} {ns : List (Note Tree)}
    {cfg : Tree} (h : Keeps c st sto ns) (hx : sto x = some cfg) (hxv : x < st.vars) (hxc : x ≠ c) :
    ∃ e v1, Attempt early type cfg (st.mgr, ns) e v1 ∧ match e with
      | .returns => ∃ st', instantiatePlugin early type x st = .ok () st' ∧ st'.data = st.data ∧ st'.vars = st.vars ∧
          st'.mgr = v1.1 ∧ Keeps c st' sto v1.2
      | .throws e => ∃ st', instantiatePlugin early type x st = .throw e st' ∧ st'.data = st.data ∧ st'.vars = st.vars ∧
          st'.mgr = v1.1 ∧ Keeps c st' sto v1.2
      | .undefined => instantiatePlugin early type x st = .ub := by
  have hkeep : ∀ m, Keeps c { st with mgr := m } sto ns := fun m => ⟨h.sim, h.notes, h.vars⟩
  obtain ⟨r, hr⟩ : ∃ r, Plugin.instantiateTemplate early type none st.mgr = r := ⟨_, rfl⟩
  cases r with
  | ok o m =>
    cases o with
    | none =>
      by_cases hf : st.mgr.templates.find type = none
      · refine ⟨_, _, .unknown hf, ?_⟩
        have : m = st.mgr := by
          simp only [Plugin.instantiateTemplate, hf, Out.ok.injEq, true_and] at hr
          exact hr.symm
        subst this
        exact ⟨st, by simp only [instantiatePlugin, hr], rfl, rfl, rfl, h⟩
      · exact ⟨_, _, .null hf hr, { st with mgr := m }, by simp only [instantiatePlugin, hr], rfl, rfl, rfl, hkeep m⟩
    | some p =>
      obtain ⟨name, i⟩ := p
      cases hi : i.initExn with
      | none =>
        refine ⟨_, _, .started hr hi, { st with mgr := m, notes := st.notes ++ [.initialized name x, .started name] }, by simp only [instantiatePlugin, hr, hi], rfl, rfl, rfl, ?_⟩
        refine h.note m (by simp [resolve, hx]) ?_
        intro n hn y hy
        simp only [List.mem_cons, List.not_mem_nil, or_false] at hn
        rcases hn with rfl | rfl <;> simp only [Note.var, Option.some.injEq, reduceCtorEq] at hy
        subst hy; exact ⟨hxv, hxc⟩
      | some e =>
        refine ⟨_, _, .notInitialized hr hi, { st with mgr := m, notes := st.notes ++ [.initialized name x] }, by simp only [instantiatePlugin, hr, hi], rfl, rfl, rfl, ?_⟩
        refine h.note m (by simp [resolve, hx]) ?_
        intro n hn y hy
        simp only [List.mem_singleton] at hn
        subst hn; simp only [Note.var, Option.some.injEq] at hy
        subst hy; exact ⟨hxv, hxc⟩
  | throw e m => exact ⟨_, _, .fails hr, { st with mgr := m }, by simp only [instantiatePlugin, hr], rfl, rfl, rfl, hkeep m⟩
  | ub => exact ⟨_, _, .undefined hr, by simp only [instantiatePlugin, hr]⟩
  | terminate =>
    exfalso
    unfold Plugin.instantiateTemplate at hr
    dsimp only at hr
    split at hr
    · cases hr
    · split at hr <;> try cases hr
      rename_i h2
      exact instantiate_not_terminate _ _ _ h2

/-- One entry. -/
theorem tryPlugin_spec {early : Bool} {type : Str} {c x : Nat} {st : St} {sto : Store} {ns : List (Note Tree)}
    {cfg : Tree} (h : Keeps c st sto ns) (hx : sto x = some cfg) (hxv : x < st.vars) (hxc : x ≠ c) :
    (∃ st' v1, tryPlugin early type x st = .ok () st' ∧ st'.data = st.data ∧ st'.vars = st.vars ∧
      Attempt early type cfg (st.mgr, ns) .returns v1 ∧ st'.mgr = v1.1 ∧ Keeps c st' sto v1.2) ∨
    (∃ st' v1, tryPlugin early type x st = .ok () st' ∧ st'.data = st.data ∧ st'.vars = st.vars ∧
      Attempt early type cfg (st.mgr, ns) (.throws .operationFailed) v1 ∧ st'.mgr = v1.1 ∧
      Keeps c st' sto (v1.2 ++ [.reported type cfg])) ∨
    (∃ st' v1 e, tryPlugin early type x st = .throw e st' ∧ e ≠ .operationFailed ∧
      Attempt early type cfg (st.mgr, ns) (.throws e) v1 ∧ st'.mgr = v1.1 ∧ Keeps c st' sto v1.2 ∧ st'.vars = st.vars) ∨
    (∃ v1, tryPlugin early type x st = .ub ∧ Attempt early type cfg (st.mgr, ns) .undefined v1) := by
  obtain ⟨e, v1, ha, hr⟩ := instantiatePlugin_spec (early := early) (type := type) h hx hxv hxc
  cases e with
  | returns =>
    obtain ⟨st', h1, h2, h3, h4, h5⟩ := hr
    exact .inl ⟨st', v1, by simp only [tryPlugin, h1], h2, h3, ha, h4, h5⟩
  | throws e =>
    obtain ⟨st', h1, h2, h3, h4, h5⟩ := hr
    by_cases he : e = .operationFailed
    · subst he
      refine .inr (.inl ⟨{ st' with notes := st'.notes ++ [.reported type x] }, v1, by simp only [tryPlugin, h1], h2, h3, ha, h4, ?_⟩)
      refine h5.note st'.mgr (by simp [resolve, hx]) ?_
      intro n hn y hy
      simp only [List.mem_singleton] at hn
      subst hn; simp only [Note.var, Option.some.injEq] at hy
      subst hy; rw [h3]; exact ⟨hxv, hxc⟩
    · refine .inr (.inr (.inl ⟨st', v1, e, ?_, he, ha, h4, h5, h3⟩))
      unfold tryPlugin
      rw [h1]
      cases e <;> first | rfl | exact absurd rfl he
  | undefined => exact .inr (.inr (.inr ⟨v1, by simp only [tryPlugin, hr], ha⟩))

/-- A call on the entry at `i` of the plugin list works on that entry only. -/
theorem editAt_entry {t : Tree} {us : List Tree} {i : Nat} {e : Tree} (hp : Dict.find (bs "plugins") t.asDict = some (.list us))
    (hi : us[i]? = some e) (hb : i < 2 ^ 32) (q : List Sel) (F : Tree.Edit) :
    Tree.editAt (entryAt i ++ q) F t =
      (.dict (Dict.insert (bs "plugins") (.list (us.set i (Tree.editAt q F e).1)) t.asDict), (Tree.editAt q F e).2) := by
  have h1 : (BitVec.ofNat 32 i).toNat = i := by simp [Nat.mod_eq_of_lt hb]
  simp only [entryAt, List.cons_append, List.nil_append, Tree.editAt, hp, Option.getD_some, Tree.asList, h1, hi]

theorem subAt_entry {t : Tree} {us : List Tree} {i : Nat} {e : Tree} (hp : Dict.find (bs "plugins") t.asDict = some (.list us))
    (hi : us[i]? = some e) (hb : i < 2 ^ 32) (q : List Sel) : Tree.subAt (entryAt i ++ q) t = Tree.subAt q e := by
  have h1 : (BitVec.ofNat 32 i).toNat = i := by simp [Nat.mod_eq_of_lt hb]
  simp only [entryAt, List.cons_append, List.nil_append, Tree.subAt, hp, Option.getD_some, Tree.asList, h1, hi]

/-- A call ended in the given way, and the state is in order. -/
def EndsK (c : Nat) (r : Out St Unit) (x : Ending) (v : View) (lo : Nat) : Prop :=
  match x with
  | .returns => ∃ st' sto', r = .ok () st' ∧ st'.mgr = v.1 ∧ Keeps c st' sto' v.2 ∧ lo ≤ st'.vars
  | .throws e => ∃ st' sto', r = .throw e st' ∧ st'.mgr = v.1 ∧ Keeps c st' sto' v.2 ∧ lo ≤ st'.vars
  | .undefined => r = .ub

theorem EndsK.mono {c : Nat} {r : Out St Unit} {x : Ending} {v : View} {lo lo' : Nat} (h : EndsK c r x v lo) (hl : lo' ≤ lo) :
    EndsK c r x v lo' := by
  cases x with
  | returns => obtain ⟨a, b, h1, h2, h3, h4⟩ := h; exact ⟨a, b, h1, h2, h3, Nat.le_trans hl h4⟩
  | throws e => obtain ⟨a, b, h1, h2, h3, h4⟩ := h; exact ⟨a, b, h1, h2, h3, Nat.le_trans hl h4⟩
  | undefined => exact h

theorem EndsK.endsWith {c : Nat} {r : Out St Unit} {x : Ending} {v : View} {lo : Nat} (h : EndsK c r x v lo) : EndsWith r x v := by
  cases x with
  | returns =>
    obtain ⟨a, b, h1, h2, h3, _⟩ := h
    have := h3.shows; rw [h2] at this
    exact ⟨a, h1, this⟩
  | throws e =>
    obtain ⟨a, b, h1, h2, h3, _⟩ := h
    have := h3.shows; rw [h2] at this
    exact ⟨a, h1, this⟩
  | undefined => exact h

theorem entries_spec {early : Bool} {c : Nat} : ∀ (n i : Nat) (st : St) (sto : Store) (ns : List (Note Tree))
    (t : Tree) (us : List Tree), Keeps c st sto ns → sto c = some t → Dict.find (bs "plugins") t.asDict = some (.list us) →
    i + n ≤ us.length → i + n ≤ 2 ^ 31 → c < st.vars →
    ∃ x v', Runs early ((us.drop i).take n) (st.mgr, ns) x v' ∧ EndsK c (entries early c n i st) x v' st.vars := by
  intro n
  induction n with
  | zero =>
    intro i st sto ns t us hk _ _ _ _ _
    exact ⟨_, _, .nil, st, sto, rfl, rfl, hk, Nat.le_refl _⟩
  | succ n ih =>
    intro i st sto ns t us hk hc hp hlen hl hcv
    have hil : i < us.length := by omega
    obtain ⟨e, hi⟩ : ∃ e, us[i]? = some e := ⟨us[i], List.getElem?_eq_getElem hil⟩
    obtain ⟨rest, hrest⟩ : ∃ rest, rest = (us.drop (i + 1)).take n := ⟨_, rfl⟩
    have hsplit : (us.drop i).take (n + 1) = e :: rest := by
      have h1 : us.drop i = e :: us.drop (i + 1) := by
        rw [List.drop_eq_getElem_cons hil]; congr 1
        rw [List.getElem?_eq_getElem hil] at hi; exact Option.some.inj hi
      rw [h1, List.take_succ_cons, hrest]
    rw [hsplit]
    have hb : i < 2 ^ 32 := by omega
    have hset : ∀ e', (us.set i e').drop (i + 1) = us.drop (i + 1) := by
      intro e'; rw [List.drop_set, if_pos (by omega)]
    have hself : us.set i e = us := by
      apply List.ext_getElem? ; intro j
      rw [List.getElem?_set]; split
      · rename_i hj; subst hj; rw [hi]
      · rfl
    -- KeyExists("type")
    obtain ⟨s1, hs1, hr1⟩ := ask_spec hk.sim hc (entryAt i) (reads_keyExists (bs "type"))
    have he1 := editAt_entry hp hi hb [] Tree.eTouch
    have hu1 := subAt_entry hp hi hb []
    simp only [List.append_nil, Tree.editAt, Tree.eTouch, Tree.subAt, hself] at he1 hu1
    rw [show Tree.editAt (entryAt i) Tree.eTouch t = _ from he1] at hs1 hr1
    rw [hu1] at hr1
    simp only at hs1 hr1
    let t1 : Tree := .dict (Dict.insert (bs "plugins") (.list us) t.asDict)
    have hp1 : Dict.find (bs "plugins") t1.asDict = some (.list us) := by simp [t1, Tree.asDict]
    have hk1 : Keeps c { st with data := s1 } (sto.set c t1) ns := by
      have := hk.change (v := st.vars) hs1 (Nat.le_refl _) (fun x _ hx => by simp [Store.set, hx])
      simpa using this
    have hc1 : (sto.set c t1) c = some t1 := by simp [Store.set]
    have nohas : Ignored e → ∃ x v', Runs early (e :: rest) (st.mgr, ns) x v' ∧
        EndsK c (entries early c (n + 1) i st) x v' st.vars := by
      intro hig
      obtain ⟨x, v', h1, h2⟩ := ih (i + 1) { st with data := s1 } _ ns t1 us hk1 hc1 hp1 (by omega) (by omega) hcv
      rw [← hrest] at h1
      refine ⟨x, v', .ignored hig h1, ?_⟩
      have : entries early c (n + 1) i st = entries early c n (i + 1) { st with data := s1 } := by
        simp only [entries, onData]
        rw [hr1]
        have : hasKey (bs "type") e = false := by
          cases e with
          | dict ds => simp [hasKey, hig ds rfl]
          | _ => rfl
        rw [this]; simp
      rw [this]; exact h2
    cases e with
    | dict ds =>
      cases hty : Dict.find (bs "type") ds with
      | none => exact nohas (fun ds' hds => by cases hds; exact hty)
      | some u =>
        simp only [hasKey, hty, Option.isSome_some] at hr1
        -- ["type"] as a string
        obtain ⟨s2, hs2, hr2⟩ := ask_spec hk1.sim hc1 (entryAt i ++ [.key (bs "type")]) reads_getStr
        have he2 := editAt_entry hp1 hi hb [.key (bs "type")] Tree.eTouch
        have hu2 := subAt_entry hp1 hi hb [.key (bs "type")]
        simp only [Tree.editAt, Tree.eTouch, Tree.subAt, Tree.asDict, hty, Option.getD_some] at he2 hu2
        rw [show Tree.editAt (entryAt i ++ [.key (bs "type")]) Tree.eTouch t1 = _ from he2] at hs2 hr2
        rw [hu2] at hr2
        simp only at hs2 hr2
        let e2 : Tree := .dict (Dict.insert (bs "type") u ds)
        let us2 := us.set i e2
        let t2 : Tree := .dict (Dict.insert (bs "plugins") (.list us2) t1.asDict)
        have hp2 : Dict.find (bs "plugins") t2.asDict = some (.list us2) := by simp [t2, Tree.asDict]
        have hk2 : Keeps c { st with data := s2 } ((sto.set c t1).set c t2) ns := by
          exact hk1.change (v := st.vars) hs2 (Nat.le_refl _) (fun x _ hx => by simp [Store.set, hx])
        have hc2 : ((sto.set c t1).set c t2) c = some t2 := by simp [Store.set]
        by_cases hstr : ∃ s, u = .value (.str s)
        · obtain ⟨ty, rfl⟩ := hstr
          simp only [strOf] at hr2
          -- the new variable
          have hne : st.vars ≠ c := by omega
          obtain ⟨s3, hr3, hs3⟩ := Sim.step hk2.sim (.decl st.vars .empty)
          simp only [Store.step] at hr3 hs3
          obtain ⟨s4, hr4, hs4⟩ := Sim.step hs3 (.assignFrom st.vars c (entryAt i ++ [.key (bs "configuration")]))
          have hi2 : us2[i]? = some e2 := by simp [us2, hil]
          have he4 := editAt_entry hp2 hi2 hb [.key (bs "configuration")] Tree.eTouch
          have hu4 := subAt_entry hp2 hi2 hb [.key (bs "configuration")]
          have hcf : Dict.find (bs "configuration") e2.asDict = Dict.find (bs "configuration") ds := by
            simp only [e2, Tree.asDict]; exact Dict.find_insert_ne (by decide) _ _
          simp only [Tree.editAt, Tree.eTouch, Tree.subAt, hcf] at he4 hu4
          let cfg : Tree := (Dict.find (bs "configuration") ds).getD .empty
          let us4 := us2.set i (.dict (Dict.insert (bs "configuration") cfg e2.asDict))
          let t4 : Tree := .dict (Dict.insert (bs "plugins") (.list us4) t2.asDict)
          have hsx : ((((sto.set c t1).set c t2).set st.vars (Tree.ofType .empty)) st.vars) = some (Tree.ofType .empty) := by
            simp [Store.set]
          have hsc : ((((sto.set c t1).set c t2).set st.vars (Tree.ofType .empty)) c) = some t2 := by
            simp [Store.set, Ne.symm hne]
          simp only [Store.step, hsx, hsc] at hr4 hs4
          rw [show Tree.editAt (entryAt i ++ [.key (bs "configuration")]) Tree.eTouch t2 = _ from he4] at hr4 hs4
          rw [hu4] at hr4 hs4
          simp only at hr4 hs4
          let sto4 : Store := (((((sto.set c t1).set c t2).set st.vars (Tree.ofType .empty)).set c t4).set st.vars cfg)
          have hs4' : Sim s4 sto4 := hs4
          have hk4 : Keeps c { st with data := s4, vars := st.vars + 1 } sto4 ns := by
            refine hk.change (v := st.vars + 1) hs4' (Nat.le_succ _) (fun x hx hxc => ?_)
            have : x ≠ st.vars := Nat.ne_of_lt hx
            simp [sto4, Store.set, hxc, this]
          have hx4 : sto4 st.vars = some cfg := by simp [sto4, Store.set]
          have hc4 : sto4 c = some t4 := by simp [sto4, Store.set, Ne.symm hne]
          have hp4 : Dict.find (bs "plugins") t4.asDict = some (.list us4) := by simp [t4, Tree.asDict]
          have hd4 : (us4.drop (i + 1)).take n = rest := by
            simp only [us4, us2]
            rw [List.drop_set, if_pos (by omega), hset e2, hrest]
          have hl4 : i + 1 + n ≤ us4.length := by simp [us4, us2]; omega
          have hnames : Names (.dict ds) ty cfg := by
            refine ⟨ds, rfl, hty, ?_⟩
            cases hcc : Dict.find (bs "configuration") ds with
            | none => exact .inr ⟨rfl, by simp [cfg, hcc]⟩
            | some g => exact .inl (by simp [cfg, hcc])
          have hrun : entries early c (n + 1) i st =
              match tryPlugin early ty st.vars { st with data := s4, vars := st.vars + 1 } with
              | .ok _ st5 => entries early c n (i + 1) st5
              | .throw e st5 => .throw e st5
              | .ub => .ub
              | .terminate => .terminate := by
            simp only [entries, onData]
            rw [hr1]; simp only [if_true]
            rw [hr2]; simp only [textOf]
            rw [hr3]; simp only
            rw [hr4]
            rfl
          rcases tryPlugin_spec (early := early) (type := ty) hk4 hx4 (Nat.lt_succ_self _) hne with
            ⟨st', v1, h1, h2, h3, ha, hm, hk5⟩ | ⟨st', v1, h1, h2, h3, ha, hm, hk5⟩ | ⟨st', v1, x, h1, hx, ha, hm, hk5, h3⟩ |
            ⟨v1, h1, ha⟩
          · obtain ⟨x, v', hR, hE⟩ := ih (i + 1) st' sto4 v1.2 t4 us4 hk5 hc4 hp4 hl4 (by omega) (by rw [h3]; exact Nat.lt_succ_of_lt hcv)
            rw [hd4] at hR
            refine ⟨x, v', .done hnames ha (by rw [hm] at hR; exact hR), ?_⟩
            rw [hrun, h1]; exact hE.mono (by rw [h3]; exact Nat.le_succ _)
          · obtain ⟨x, v', hR, hE⟩ := ih (i + 1) st' sto4 _ t4 us4 hk5 hc4 hp4 hl4 (by omega) (by rw [h3]; exact Nat.lt_succ_of_lt hcv)
            rw [hd4] at hR
            refine ⟨x, v', .skipped hnames ha (by rw [hm] at hR; exact hR), ?_⟩
            rw [hrun, h1]; exact hE.mono (by rw [h3]; exact Nat.le_succ _)
          · refine ⟨_, v1, .thrown hnames ha hx, st', sto4, by rw [hrun, h1], hm, hk5, by rw [h3]; exact Nat.le_succ _⟩
          · exact ⟨_, v1, .undefined hnames ha, by rw [hrun, h1]; rfl⟩
        · have hmal : Malformed (.dict ds) := ⟨ds, u, rfl, hty, fun s hs => hstr ⟨s, hs⟩⟩
          refine ⟨_, _, .malformed hmal, { st with data := s2 }, _, ?_, rfl, hk2, Nat.le_refl _⟩
          simp only [entries, onData]
          rw [hr1]; simp only [if_true]
          rw [hr2]
          have : strOf u = .error .invalidOperation := by
            unfold strOf; split
            · rename_i s; exact absurd ⟨s, rfl⟩ hstr
            · rfl
          rw [this]
    | _ => exact nohas (fun ds' hds => by cases hds)

end LP.Host
