import Verif.Lemma.Reach
import Verif.Spec.Doc
/-! Local updates: what a change below one object does to the documents above it. -/
namespace LP
open Heap

/-- `h'` results from `h` by changing only objects of the datagram at `a` (and new ones), and `a` now denotes `t'`. -/
structure Good (h : Heap) (a : Nat) (h' : Heap) (t' : Tree) : Prop where
  wf : WF h'
  mono : h.next ≤ h'.next
  frame : ∀ c, c < h.next → ¬ Reach h a c → h'.node c = h.node c
  rep : Rep h' (fun x => x < h'.next) t' a
  kids : ∀ x b, x < h.next → b < h.next → some b ∈ (h'.node x).children → some b ∈ (h.node x).children

theorem put_self (h : Heap) (a : Nat) : h.put a (h.node a) = h := by
  cases h with
  | mk n f => simp only [put]; congr 1; funext b; split <;> simp_all

theorem Good.refl {h : Heap} (w : WF h) {a : Nat} {t : Tree} (ht : Rep h (fun x => x < h.next) t a) : Good h a h t :=
  ⟨w, Nat.le_refl _, fun _ _ _ => rfl, ht, fun _ _ _ _ h => h⟩

theorem Good.roots {h h' : Heap} {a : Nat} {t' : Tree} (g : Good h a h' t') {c : Nat} (hc : c < h.next) (hp : NoParent h c) :
    NoParent h' c := by
  intro x hx hm
  obtain ⟨b, hb, h1, h2⟩ := g.wf.up x hx _ hm
  simp only [Option.some.injEq] at hb; subst hb
  have hxn : x < h.next := Nat.lt_trans h1 hc
  exact hp x hxn (g.kids x c hxn hc hm)

theorem Good.below {h h' : Heap} {a : Nat} {t' : Tree} (g : Good h a h' t') {b c : Nat} (hb : b < h'.next)
    (hr : Reach h' b c) (hc : c < h.next) : Reach h b c := by
  induction hr with
  | refl => exact Reach.refl
  | @step y z h1 hm ih =>
    obtain ⟨b', hb', hlt, _⟩ := g.wf.up y (Reach.bounds g.wf hb h1).2 _ hm
    simp only [Option.some.injEq] at hb'; subst hb'
    have hy : y < h.next := Nat.lt_trans hlt hc
    exact Reach.step (ih hy) (g.kids y z hy hc hm)

theorem dict_val_inj {d : Dict Ptr} (hnd : (d.map Prod.snd).Nodup) {k k' : Str} {p : Ptr}
    (h1 : (k, p) ∈ d) (h2 : (k', p) ∈ d) : k = k' := by
  induction d with
  | nil => simp at h1
  | cons e d ih =>
    simp only [List.map_cons, List.nodup_cons] at hnd
    simp only [List.mem_cons] at h1 h2
    rcases h1 with h1 | h1 <;> rcases h2 with h2 | h2
    · rw [← h1] at h2; simp only [Prod.mk.injEq, and_true] at h2; exact h2.symm
    · exact absurd (List.mem_map.mpr ⟨_, h2, by rw [← h1]⟩) hnd.1
    · exact absurd (List.mem_map.mpr ⟨_, h1, by rw [← h2]⟩) hnd.1
    · exact ih hnd.2 h1 h2

theorem RepD.update {h h' : Heap} {S S' : Addr → Prop} {ds : List (Str × Tree)} {d : Dict Ptr} {k : Str} {b : Nat} {t' : Tree}
    (hr : RepD h S ds d) (hs : Dict.Sorted d) (hk : Dict.find k d = some (some b)) (hb : Rep h' S' t' b)
    (ho : ∀ k2 c u, k2 ≠ k → (k2, some c) ∈ d → Rep h S u c → Rep h' S' u c) :
    RepD h' S' (Dict.insert k t' ds) d := by
  induction ds generalizing d with
  | nil => simp only [RepD] at hr; subst hr; simp at hk
  | cons e ds ih =>
    obtain ⟨q, u⟩ := e
    simp only [RepD] at hr
    obtain ⟨c, e, rfl, hc, he⟩ := hr
    rw [Dict.sorted_cons] at hs
    have hrest : ∀ (ds : List (Str × Tree)) (e : Dict Ptr), RepD h S ds e →
        (∀ k2 c u, k2 ≠ k → (k2, some c) ∈ e → Rep h S u c → Rep h' S' u c) → (∀ x ∈ e, x.1 ≠ k) → RepD h' S' ds e := by
      intro ds
      induction ds with
      | nil => intro e he _ _; exact he
      | cons x ds ihd =>
        intro e he ho hne
        obtain ⟨q, u⟩ := x
        simp only [RepD] at he
        obtain ⟨c, e, rfl, hc, he⟩ := he
        exact ⟨c, e, rfl, ho q c u (hne (q, some c) (by simp)) (by simp) hc,
          ihd e he (fun k2 c u h1 h2 => ho k2 c u h1 (by simp [h2])) (fun x hx => hne x (by simp [hx]))⟩
    simp only [Dict.insert]
    split
    · rename_i hq; subst hq
      simp only [Dict.find, if_true, Option.some.injEq] at hk
      subst hk
      refine ⟨c, e, rfl, hb, hrest ds e he (fun k2 c u h1 h2 => ho k2 c u h1 (by simp [h2])) ?_⟩
      intro x hx; exact (Str.lt_ne (hs.1 x hx)).symm
    · rename_i hne
      simp only [Dict.find, Ne.symm hne, if_false] at hk
      split
      · rename_i hlt
        have hm := hs.1 _ (Dict.find_some_mem hk)
        exact absurd (Str.lt_trans hlt hm) (by simp [Str.lt_irrefl])
      · exact ⟨c, e, rfl, ho q c u (Ne.symm hne) (by simp) hc,
          ih he hs.2 hk (fun k2 c u h1 h2 => ho k2 c u h1 (by simp [h2]))⟩

theorem RepL.update {h h' : Heap} {S S' : Addr → Prop} {ts : List Tree} {ps : List Ptr} {i : Nat} {b : Nat} {t' : Tree}
    (hr : RepL h S ts ps) (hk : ps[i]? = some (some b)) (hb : Rep h' S' t' b)
    (ho : ∀ j c u, j ≠ i → ps[j]? = some (some c) → Rep h S u c → Rep h' S' u c) :
    RepL h' S' (ts.set i t') ps := by
  rw [RepL_iff] at hr ⊢
  refine ⟨by simp [hr.1], fun j h1 h2 => ?_⟩
  have h1' : j < ts.length := by simpa using h1
  obtain ⟨c, hc, hrc⟩ := hr.2 j h1' h2
  by_cases e : j = i
  · subst e
    have : c = b := by
      rw [List.getElem?_eq_getElem h2, hc] at hk; simpa using hk
    subst this
    exact ⟨c, hc, by simpa using hb⟩
  · refine ⟨c, hc, ?_⟩
    rw [List.getElem_set_ne (Ne.symm e)]
    exact ho j c _ e (by rw [List.getElem?_eq_getElem h2, hc]) hrc

/-- Restricting a representation to reachable objects and carrying it over. -/
theorem Rep.carry {h h' : Heap} {u : Tree} {c : Nat} (hr : Rep h (fun x => x < h.next) u c) (hm : h.next ≤ h'.next)
    (hf : ∀ x, x < h.next → Reach h c x → h'.node x = h.node x) : Rep h' (fun x => x < h'.next) u c :=
  Rep.mono (h := h) (S := fun x => x < h.next ∧ Reach h c x) (fun _ ⟨p, _⟩ => Nat.lt_of_lt_of_le p hm)
    (fun x ⟨p, q⟩ => hf x p q) _ _ (Rep.reach _ _ hr)

/-- A change below the entry `k` of dictionary `a`. -/
theorem Good.liftKey {h h' : Heap} (w : WF h) {a b : Nat} {k : Str} {d : Dict Ptr} {ds : List (Str × Tree)} {t' : Tree}
    (ha : a < h.next) (hn : h.node a = ⟨.dict, d, [], none⟩) (hk : Dict.find k d = some (some b))
    (hr : Rep h (fun x => x < h.next) (.dict ds) a) (g : Good h b h' t') :
    Good h a h' (.dict (Dict.insert k t' ds)) := by
  have hbm : some b ∈ (h.node a).children := by
    rw [hn]; simp only [Node.children, List.append_nil]
    exact List.mem_map_of_mem (f := Prod.snd) (Dict.find_some_mem hk)
  obtain ⟨b', hb', hab, hbn⟩ := w.up a ha _ hbm
  simp only [Option.some.injEq] at hb'
  subst hb'
  have hna : h'.node a = h.node a := g.frame a ha (fun hr => by have := Reach.bounds w hbn hr; omega)
  refine ⟨g.wf, g.mono, fun c hc hnr => g.frame c hc (fun h1 => hnr (Reach.child hbm h1)), ?_, g.kids⟩
  obtain ⟨_, d', hn', hs, hrd⟩ := hr
  rw [hn] at hn'
  simp only [Node.mk.injEq, true_and, and_true] at hn'
  subst hn'
  refine ⟨Nat.lt_of_lt_of_le ha g.mono, d, by rw [hna, hn], hs, ?_⟩
  refine RepD.update hrd hs hk g.rep ?_
  intro k2 c u hne hmem hru
  refine Rep.carry hru g.mono ?_
  intro x hx hrx
  refine g.frame x hx ?_
  have hcm : some c ∈ (h.node a).children := by
    rw [hn]; simp only [Node.children, List.append_nil]
    exact List.mem_map_of_mem (f := Prod.snd) hmem
  have hnd : (d.map Prod.snd).Nodup := by
    have := w.nodup a ha; rw [hn] at this; simpa [Node.children] using this
  refine w.siblings ha hcm hbm ?_ hrx
  intro e; subst e
  exact hne (dict_val_inj hnd hmem (Dict.find_some_mem hk))

/-- A change below element `i` of list `a`. -/
theorem Good.liftIdx {h h' : Heap} (w : WF h) {a b i : Nat} {ps : List Ptr} {ts : List Tree} {t' : Tree}
    (ha : a < h.next) (hn : h.node a = ⟨.list, [], ps, none⟩) (hk : ps[i]? = some (some b))
    (hr : Rep h (fun x => x < h.next) (.list ts) a) (g : Good h b h' t') :
    Good h a h' (.list (ts.set i t')) := by
  have hbm : some b ∈ (h.node a).children := by
    rw [hn]; simp only [Node.children, List.map_nil, List.nil_append]
    exact List.mem_of_getElem? hk
  obtain ⟨b', hb', hab, hbn⟩ := w.up a ha _ hbm
  simp only [Option.some.injEq] at hb'
  subst hb'
  have hna : h'.node a = h.node a := g.frame a ha (fun hr => by have := Reach.bounds w hbn hr; omega)
  refine ⟨g.wf, g.mono, fun c hc hnr => g.frame c hc (fun h1 => hnr (Reach.child hbm h1)), ?_, g.kids⟩
  obtain ⟨_, d', hn', hrd⟩ := hr
  rw [hn] at hn'
  simp only [Node.mk.injEq, true_and, and_true] at hn'
  subst hn'
  refine ⟨Nat.lt_of_lt_of_le ha g.mono, ps, by rw [hna, hn], ?_⟩
  refine RepL.update hrd hk g.rep ?_
  intro j c u hne hmem hru
  refine Rep.carry hru g.mono ?_
  intro x hx hrx
  refine g.frame x hx ?_
  have hcm : some c ∈ (h.node a).children := by
    rw [hn]; simp only [Node.children, List.map_nil, List.nil_append]
    exact List.mem_of_getElem? hmem
  have hnd : ps.Nodup := by
    have := w.nodup a ha; rw [hn] at this; simpa [Node.children] using this
  refine w.siblings ha hcm hbm ?_ hrx
  intro e; subst e
  rw [List.getElem?_eq_some_iff] at hmem hk
  obtain ⟨h1, h2⟩ := hmem
  obtain ⟨h3, h4⟩ := hk
  exact hne ((List.getElem_inj hnd).mp (h2.trans h4.symm))

/-- Composition of two changes at the same place. -/
theorem Good.trans {h h1 h2 : Heap} {a : Nat} {t1 t2 : Tree} (ha : a < h.next) (g1 : Good h a h1 t1) (g2 : Good h1 a h2 t2) :
    Good h a h2 t2 := by
  have ha1 := Nat.lt_of_lt_of_le ha g1.mono
  refine ⟨g2.wf, Nat.le_trans g1.mono g2.mono, ?_, g2.rep, ?_⟩
  · intro c hc hn
    rw [g2.frame c (Nat.lt_of_lt_of_le hc g1.mono) (fun hr => hn (g1.below ha1 hr hc)), g1.frame c hc hn]
  · intro x b hx hb hm
    exact g1.kids x b hx hb (g2.kids x b (Nat.lt_of_lt_of_le hx g1.mono) (Nat.lt_of_lt_of_le hb g1.mono) hm)

/-- Overwriting only the object at `a` by one whose old children were its children before. -/
theorem Good.one {h h' : Heap} {a : Nat} {t : Tree} (wf' : WF h') (hm : h.next ≤ h'.next)
    (hf : ∀ c, c < h.next → c ≠ a → h'.node c = h.node c)
    (hk : ∀ b, b < h.next → some b ∈ (h'.node a).children → some b ∈ (h.node a).children)
    (hr : Rep h' (fun x => x < h'.next) t a) : Good h a h' t := by
  refine ⟨wf', hm, fun c hc hnr => hf c hc (fun e => hnr (e ▸ Reach.refl)), hr, ?_⟩
  intro x b hx hb hmem
  by_cases e : x = a
  · subst e; exact hk b hb hmem
  · rwa [hf x hx e] at hmem

end LP
