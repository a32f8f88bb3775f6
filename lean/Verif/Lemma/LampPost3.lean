import Verif.Lemma.LampPost2
/-! Reading one configuration file against its specification. -/
namespace LP.Host
open Heap
open Plugin (Out)

theorem intCount_small {k : Nat} (h : k < 2 ^ 31) : intCount k = k := by
  unfold intCount
  rw [BitVec.toInt_eq_toNat_cond, BitVec.toNat_ofNat]
  split <;> omega

theorem intCount_le (k : Nat) : intCount k ≤ k := by
  unfold intCount
  rw [BitVec.toInt_eq_toNat_cond, BitVec.toNat_ofNat]
  split <;> omega

theorem intCount_bound (k : Nat) : intCount k ≤ 2 ^ 31 := by
  unfold intCount
  rw [BitVec.toInt_eq_toNat_cond, BitVec.toNat_ofNat]
  split <;> omega

theorem file_spec (tok : Str → Option Json) (early : Bool) (text : Str) {st : St} {sto : Store} {ns : List (Note Tree)}
    (hk : Keeps st.vars st sto ns) : ∃ t, Parsed tok text t ∧ ∃ x v', FileRuns early t (st.mgr, ns) x v' ∧
      EndsK st.vars (readConfigurationFile tok early text st) x v' (st.vars + 1) := by
  obtain ⟨t, ht, hj⟩ := json_spec tok text
  refine ⟨t, ht, ?_⟩
  obtain ⟨a, h', hrun, hext, hrep, hshape⟩ := hj st.data.heap
  obtain ⟨w1, _, hle, hlt, hnp⟩ := hshape hk.sim.wf
  let c := st.vars
  let d1 : DState := ⟨h', fun y => if y = c then some a else st.data.env y⟩
  have hs1 : Sim d1 (sto.set c t) := hk.sim.bind c w1 hext (Nat.le_of_eq hle.symm) (Rep.mono (S := Fresh st.data.heap h') (fun _ hz => hz.2) (fun _ _ => rfl) t a hrep) hnp
  have hk1 : Keeps c { st with data := d1, vars := c + 1 } (sto.set c t) ns :=
    hk.change hs1 (Nat.le_succ _) (fun x _ hx => by simp [Store.set, hx, c])
  have hc1 : (sto.set c t) c = some t := by simp [Store.set]
  -- KeyExists("plugins")
  obtain ⟨s2, hs2, hr2⟩ := ask_spec hk1.sim hc1 [] (reads_keyExists (bs "plugins"))
  simp only [Tree.editAt, Tree.eTouch, Tree.subAt] at hs2 hr2
  rw [Store.set_self hc1] at hs2
  have hk2 : Keeps c { st with data := s2, vars := c + 1 } (sto.set c t) ns :=
    hk1.change (v := c + 1) hs2 (Nat.le_refl _) (fun x _ _ => rfl)
  have hread : ∀ r, (if hasKey (bs "plugins") t = true then
        onData (ask c [.key (bs "plugins")] (fun b => Datagram.getCount b)) (fun n st3 =>
          entries early c n.toInt.toNat 0 st3) { st with data := s2, vars := c + 1 }
      else .ok () { st with data := s2, vars := c + 1 }) = r → readConfigurationFile tok early text st = r := by
    intro r hr
    rw [← hr]
    simp only [readConfigurationFile, onData]
    have h1 : Cmd.run (.json st.vars tok text) st.data = .ok () d1 := by
      simp only [Cmd.run, Cmd.bindVar, hrun]; rfl
    rw [h1]
    simp only
    rw [show st.vars = c from rfl, hr2]
  cases hh : hasKey (bs "plugins") t with
  | false =>
    refine ⟨_, _, .noPlugins ?_, { st with data := s2, vars := c + 1 }, _, hread _ (by simp [hh]), rfl, hk2, Nat.le_refl _⟩
    intro ds hds
    subst hds
    simpa [hasKey] using hh
  | true =>
    obtain ⟨ds, u, hds, hf⟩ : ∃ ds u, t = .dict ds ∧ Dict.find (bs "plugins") ds = some u := by
      cases t with
      | dict ds =>
        simp only [hasKey, Option.isSome_iff_exists] at hh
        obtain ⟨u, hu⟩ := hh
        exact ⟨ds, u, rfl, hu⟩
      | _ => simp [hasKey] at hh
    -- GetCount
    obtain ⟨s3, hs3, hr3⟩ := ask_spec hk2.sim hc1 [.key (bs "plugins")] reads_getCount
    simp only [Tree.editAt, Tree.eTouch, Tree.subAt, hds, Tree.asDict, hf, Option.getD_some] at hs3 hr3
    let t3 : Tree := .dict (Dict.insert (bs "plugins") u ds)
    let sto3 := (sto.set c t).set c t3
    have hs3' : Sim s3 sto3 := by simpa only [sto3, t3, hds] using hs3
    have hk3 : Keeps c { st with data := s3, vars := c + 1 } sto3 ns :=
      hk2.change (v := c + 1) hs3' (Nat.le_refl _) (fun x _ hx => by simp [sto3, Store.set, hx])
    have hc3 : sto3 c = some t3 := by simp [sto3, Store.set]
    have hp3 : Dict.find (bs "plugins") t3.asDict = some u := by simp [t3, Tree.asDict]
    have hcount : ∀ n, countOf u = .ok n →
        readConfigurationFile tok early text st = entries early c n.toInt.toNat 0 { st with data := s3, vars := c + 1 } := by
      intro n hn
      refine hread _ ?_
      rw [hh]; simp only [if_true, onData]
      rw [hr3, hn]
    have hnocount : ∀ e, countOf u = .error e →
        readConfigurationFile tok early text st = .throw e { st with data := s3, vars := c + 1 } := by
      intro e he
      refine hread _ ?_
      rw [hh]; simp only [if_true, onData]
      rw [hr3, he]
    have hscalar : u = .empty ∨ (∃ x, u = .value x) → countOf u = .error .invalidOperation →
        ∃ x v', FileRuns early t (st.mgr, ns) x v' ∧ EndsK st.vars (readConfigurationFile tok early text st) x v' (st.vars + 1) := by
      intro hu hcu
      exact ⟨_, _, .scalar hds hf hu, { st with data := s3, vars := c + 1 }, _, hnocount _ hcu, rfl, hk3, Nat.le_refl _⟩
    cases u with
    | empty => exact hscalar (.inl rfl) rfl
    | value x => exact hscalar (.inr ⟨x, rfl⟩) rfl
    | list es =>
      obtain ⟨x, v', h1, h2⟩ := entries_spec (early := early) (c := c) (intCount es.length) 0
        { st with data := s3, vars := c + 1 } sto3 ns t3 es hk3 hc3 hp3 (by have := intCount_le es.length; omega)
        (by have := intCount_bound es.length; omega) (Nat.lt_succ_self _)
      refine ⟨x, v', .list hds hf (by simpa using h1), ?_⟩
      rw [hcount _ rfl]; exact h2
    | dict es =>
      by_cases hz : intCount es.length = 0
      · refine ⟨_, _, .emptyDictionary hds hf hz, { st with data := s3, vars := c + 1 }, _, ?_, rfl, hk3, Nat.le_refl _⟩
        rw [hcount _ rfl]
        have : (BitVec.ofNat 32 es.length).toInt.toNat = 0 := hz
        rw [this]; rfl
      · obtain ⟨k, hk'⟩ := Nat.exists_eq_succ_of_ne_zero hz
        obtain ⟨s4, hs4, hr4⟩ := ask_spec hk3.sim hc3 (entryAt 0) (reads_keyExists (bs "type"))
        have he : Tree.editAt (entryAt 0) Tree.eTouch t3 =
            (.dict (Dict.insert (bs "plugins") (.list []) t3.asDict), some (.indexOutOfBounds 0)) := by
          simp [entryAt, Tree.editAt, hp3, Tree.asList]
        rw [he] at hs4 hr4
        simp only at hs4 hr4
        refine ⟨_, _, .dictionary hds hf hz, { st with data := s4, vars := c + 1 }, _, ?_, rfl,
          hk3.change (v := c + 1) hs4 (Nat.le_refl _) (fun x _ hx => by simp [Store.set, hx]), Nat.le_refl _⟩
        rw [hcount _ rfl]
        have : (BitVec.ofNat 32 es.length).toInt.toNat = k + 1 := hk'
        rw [this]
        simp only [entries, onData]
        rw [hr4]

end LP.Host
