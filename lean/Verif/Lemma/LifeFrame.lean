import Verif.Lemma.LifeKeep
/-! What a step can do to an object that exists. -/
namespace LP.Life

theorem lt_of_live {σ : St} (h : Inv σ) {x : Nat} {o : Obj} (hx : σ.obj x = some o) : x < σ.n := by
  apply Nat.lt_of_not_le; intro hn; rw [h.fresh x hn] at hx; cases hx

/-- A step leaves an object alone, or changes it as stated. -/
inductive Change (y : Act) (x : Nat) : Obj → Obj → Prop where
  | same (o : Obj) : Change y x o o
  | bus (b b' : BusO) (hk : ∀ c ∈ b.kids, c ∈ b'.kids) (hp : ∀ c ∈ b.parts, c ∈ b'.parts ∨ y = .delete x c) : Change y x (.bus b) (.bus b')
  | sub (cb cb' : Option Fn) (hy : (∃ b, y = .delete b x) ∨ ∃ c, y = .setCb x c) : Change y x (.sub cb) (.sub cb')
  | pub (fn : Option (Nat × Option Nat)) (b : Nat) (hy : y = .delete b x) : Change y x (.pub fn) (.pub none)
  | act (k : Bool) (s p : Nat) (fs fs' : List Fn) : Change y x (.act k s p fs) (.act k s p fs')

theorem cut_change {σ σ' : St} (ct : Cut σ σ') {y : Act} {x : Nat} {o : Obj} (hx : σ.obj x = some o) :
    ∃ o', σ'.obj x = some o' ∧ Change y x o o' := by
  rcases ct.obj x with e | ⟨b, e, e'⟩
  · exact ⟨o, by rw [e]; exact hx, .same o⟩
  · rw [hx] at e; cases e
    exact ⟨_, e', .bus _ _ (fun c hc => hc) (fun c hc => .inl hc)⟩

theorem call_change {σ σ' : St} (h : Inv σ) {y : Act} (hs : call σ y = .to σ') {x : Nat} {o : Obj} (hx : σ.obj x = some o) :
    ∃ o', σ'.obj x = some o' ∧ Change y x o o' := by
  have hn := lt_of_live h hx
  have keep : σ'.obj x = some o → ∃ o', σ'.obj x = some o' ∧ Change y x o o' := fun e => ⟨o, e, .same o⟩
  cases y with
  | newRoot => cases hs; apply keep; simp only [St.hold, St.alloc, St.put]; grind
  | createChild b =>
    simp only [call] at hs
    repeat' split at hs
    all_goals cases hs
    · exact keep hx
    · rename_i bo hb _ r _
      by_cases e : x = b
      · subst e; rw [hx] at hb; cases hb
        refine ⟨_, if_pos rfl, .bus _ _ (fun c hc => by simp [hc]) (fun c hc => .inl hc)⟩
      · apply keep; simp only [St.hold, St.alloc, St.put]; grind
  | createSub b cb =>
    simp only [call] at hs
    repeat' split at hs
    all_goals cases hs
    rename_i hh _ bo hb
    by_cases e : x = b
    · subst e; rw [hx] at hb; cases hb
      refine ⟨_, if_pos rfl, .bus _ _ (fun c hc => hc) (fun c hc => .inl (by simp [hc]))⟩
    · apply keep; simp only [St.hold, St.alloc, St.put]; grind
  | createPub b lib =>
    simp only [call] at hs
    repeat' split at hs
    all_goals cases hs
    rename_i hh _ bo hb
    by_cases e : x = b
    · subst e; rw [hx] at hb; cases hb
      refine ⟨_, if_pos rfl, .bus _ _ (fun c hc => hc) (fun c hc => .inl (by simp [hc]))⟩
    · apply keep; simp only [St.hold, St.alloc, St.put]; grind
  | createAct b fn lib =>
    simp only [call] at hs
    repeat' split at hs
    all_goals cases hs
    rename_i hh _ bo hb
    by_cases e : x = b
    · subst e; rw [hx] at hb; cases hb
      refine ⟨_, if_pos rfl, .bus _ _ (fun c hc => hc) (fun c hc => .inl (by simp [hc]))⟩
    · apply keep; simp only [St.hold, St.alloc, St.put]; grind
  | setCb s cb =>
    simp only [call] at hs
    repeat' split at hs
    all_goals cases hs
    rename_i hh _ old hb _
    by_cases e : x = s
    · subst e; rw [hx] at hb; cases hb
      exact ⟨_, if_pos rfl, .sub _ _ (.inr ⟨_, rfl⟩)⟩
    · apply keep; simp only [St.put]; rw [if_neg e]; exact hx
  | request a fn =>
    simp only [call] at hs
    repeat' split at hs
    all_goals first | (cases hs; done) | skip
    rename_i hh _ s p fs ha
    cases publish_to hs
    by_cases e : x = a
    · subst e; rw [hx] at ha; cases ha
      exact ⟨_, if_pos rfl, .act _ _ _ _ _⟩
    · apply keep; simp only [St.put]; rw [if_neg e]; exact hx
  | erase a i =>
    simp only [call] at hs
    repeat' split at hs
    all_goals cases hs
    rename_i s p fs ha _ f hf hr
    by_cases e : x = a
    · subst e; rw [hx] at ha; cases ha
      exact ⟨_, if_pos rfl, .act _ _ _ _ _⟩
    · apply keep; simp only [St.put]; rw [if_neg e]; exact hx
  | delete b p =>
    simp only [call] at hs
    repeat' split at hs
    all_goals cases hs
    all_goals
      rename_i _ _ _ bo old hb hp hst
      have hpb : p ≠ b := by intro e; subst e; rw [hb] at hp; cases hp
      by_cases e : x = b
      · subst e; rw [hx] at hb; cases hb
        refine ⟨_, if_pos rfl, .bus _ _ (fun c hc => hc) (fun c hc => ?_)⟩
        by_cases e : c = p
        · subst e; exact .inr rfl
        · exact .inl (List.mem_filter.2 ⟨hc, by simp [e]⟩)
      · by_cases e' : x = p
        · subst e'; rw [hx] at hp; cases hp
          first
            | exact ⟨.sub none, by simp only [St.put]; rw [if_neg e]; simp, .sub _ _ (.inl ⟨_, rfl⟩)⟩
            | exact ⟨.pub none, by simp only [St.put]; rw [if_neg e]; simp, .pub _ _ rfl⟩
        · apply keep; simp only [St.put]; rw [if_neg e, if_neg e']; exact hx
  | detach b =>
    simp only [call] at hs
    repeat' split at hs
    all_goals cases hs
    exact cut_change (cut_detach _ _ _) hx
  | publish p =>
    simp only [call] at hs
    repeat' split at hs
    all_goals first | (cases hs; done) | (cases publish_to hs; exact keep hx)
  | respond p =>
    simp only [call] at hs
    repeat' split at hs
    all_goals first | (cases hs; done) | (cases publish_to hs; exact keep hx)
  | busPublish p =>
    simp only [call] at hs
    repeat' split at hs
    all_goals first | (cases hs; done) | (cases forward_to hs; exact keep hx)
  | destroy a => cases hs
  | _ =>
    simp only [call] at hs
    repeat' split at hs
    all_goals first | (cases hs; done) | (cases hs; exact keep hx)

/-- Objects change as stated or are destroyed. -/
theorem step_change {σ σ' : St} (h : Inv σ) {y : Act} (hs : step σ y = .to σ') {x : Nat} {o : Obj} (hx : σ.obj x = some o) :
    (y = .destroy x ∧ σ'.obj x = none) ∨ ∃ o', σ'.obj x = some o' ∧ Change y x o o' := by
  rcases step_to hs with ⟨z, hz, e⟩ | ⟨_, e⟩
  · obtain ⟨_, _, e⟩ := destroy_to e
    subst e
    by_cases e : z = x
    · subst e; exact .inl ⟨hz, if_pos rfl⟩
    · right
      obtain ⟨o', h1, h2⟩ := cut_change (y := y) (cut_detach σ.n z σ) hx
      exact ⟨o', by simp only [St.put]; rw [if_neg (fun e' => e e'.symm)]; exact h1, h2⟩
  · exact .inr (call_change h e hx)

theorem n_step {σ σ' : St} {y : Act} (hs : step σ y = .to σ') : σ.n ≤ σ'.n := by
  rcases step_to hs with ⟨z, hz, e⟩ | ⟨_, e⟩
  · obtain ⟨_, _, e⟩ := destroy_to e
    subst e
    show σ.n ≤ (detach σ.n z σ).n
    rw [(cut_detach _ _ _).n]; exact Nat.le_refl _
  · cases y with
    | detach b =>
      simp only [call] at e
      repeat' split at e
      all_goals cases e
      rw [(cut_detach _ _ _).n]; exact Nat.le_refl _
    | request b fn =>
      simp only [call] at e
      repeat' split at e
      all_goals first | (cases e; done) | (cases publish_to e; exact Nat.le_refl _)
    | publish y =>
      simp only [call] at e
      repeat' split at e
      all_goals first | (cases e; done) | (cases publish_to e; exact Nat.le_refl _)
    | respond y =>
      simp only [call] at e
      repeat' split at e
      all_goals first | (cases e; done) | (cases publish_to e; exact Nat.le_refl _)
    | busPublish y =>
      simp only [call] at e
      repeat' split at e
      all_goals first | (cases e; done) | (cases forward_to e; exact Nat.le_refl _)
    | destroy y => cases e
    | _ =>
      simp only [call] at e
      repeat' split at e
      all_goals first | (cases e; done) | (cases e; simp only [St.hold, St.put, St.alloc]; omega) | (cases e; exact Nat.le_refl _)

/-- What has been destroyed does not come back. -/
theorem dead_step {σ σ' : St} {y : Act} (hs : step σ y = .to σ') {x : Nat} (hn : x < σ.n) (hx : σ.obj x = none) :
    σ'.obj x = none := by
  rcases step_to hs with ⟨z, hz, e⟩ | ⟨_, e⟩
  · obtain ⟨_, _, e⟩ := destroy_to e
    subst e
    have ct : Cut σ (body σ z) := cut_detach _ _ _
    simp only [St.put]
    split
    · rfl
    · rcases ct.obj x with e | ⟨b, e, _⟩
      · rw [e]; exact hx
      · rw [hx] at e; cases e
  · cases y with
    | detach b =>
      simp only [call] at e
      repeat' split at e
      all_goals cases e
      rcases (cut_detach σ.n b σ).obj x with e | ⟨b, e, _⟩
      · rw [e]; exact hx
      · rw [hx] at e; cases e
    | request b fn =>
      simp only [call] at e
      repeat' split at e
      all_goals first | (cases e; done) | (cases publish_to e; simp only [St.put]; grind)
    | publish y =>
      simp only [call] at e
      repeat' split at e
      all_goals first | (cases e; done) | (cases publish_to e; exact hx)
    | respond y =>
      simp only [call] at e
      repeat' split at e
      all_goals first | (cases e; done) | (cases publish_to e; exact hx)
    | busPublish y =>
      simp only [call] at e
      repeat' split at e
      all_goals first | (cases e; done) | (cases forward_to e; exact hx)
    | destroy y => cases e
    | _ =>
      simp only [call] at e
      repeat' split at e
      all_goals first | (cases e; done) | (cases e; exact hx) | (cases e; simp only [St.hold, St.put, St.alloc]; grind)

theorem dead_exec {σ σ' : St} {as : List Act} (hs : exec σ as = .to σ') {x : Nat} (hn : x < σ.n) (hx : σ.obj x = none) :
    σ'.obj x = none :=
  (exec_ind (P := fun σ => x < σ.n ∧ σ.obj x = none)
    (fun _ _ _ h e => ⟨Nat.lt_of_lt_of_le h.1 (n_step e), dead_step e h.1 h.2⟩) as σ σ' ⟨hn, hx⟩ hs).2

/-- A publisher publishes where it did, unless it is deleted or destroyed. -/
theorem pub_exec : ∀ (as : List Act) {σ σ' : St}, Inv σ → exec σ as = .to σ' → ∀ {p : Nat} {fn : Option (Nat × Option Nat)},
    σ.obj p = some (.pub fn) → (∀ b, Act.delete b p ∉ as) → σ'.obj p ≠ none → σ'.obj p = some (.pub fn) := by
  intro as
  induction as with
  | nil => intro σ σ' _ e p fn hp _ _; cases e; exact hp
  | cons a as ih =>
    intro σ σ' h e p fn hp hd hl
    obtain ⟨σ1, e1, e2⟩ := exec_cons e
    have hn := lt_of_live h hp
    rcases step_change h e1 hp with ⟨_, h1⟩ | ⟨o', h1, h2⟩
    · exact absurd (dead_exec e2 (Nat.lt_of_lt_of_le hn (n_step e1)) h1) hl
    · have : o' = .pub fn := by
        cases h2 with
        | same => rfl
        | pub fn b hy => exact absurd (by rw [hy]; exact List.mem_cons_self) (hd b)
      subst this
      exact ih (inv_step h e1) e2 h1 (fun b hb => hd b (List.mem_cons_of_mem _ hb)) hl

/-- A participant stays listed, unless it is deleted, as long as the bus lives. -/
theorem part_exec : ∀ (as : List Act) {σ σ' : St}, Inv σ → exec σ as = .to σ' → ∀ {b x : Nat} {o : BusO},
    σ.obj b = some (.bus o) → x ∈ o.parts → Act.delete b x ∉ as → σ'.obj b ≠ none →
    ∃ o', σ'.obj b = some (.bus o') ∧ x ∈ o'.parts := by
  intro as
  induction as with
  | nil => intro σ σ' _ e b x o hb hx _ _; cases e; exact ⟨o, hb, hx⟩
  | cons a as ih =>
    intro σ σ' h e b x o hb hx hd hl
    obtain ⟨σ1, e1, e2⟩ := exec_cons e
    have hn := lt_of_live h hb
    rcases step_change h e1 hb with ⟨_, h1⟩ | ⟨o', h1, h2⟩
    · exact absurd (dead_exec e2 (Nat.lt_of_lt_of_le hn (n_step e1)) h1) hl
    · have : ∃ bo, o' = .bus bo ∧ x ∈ bo.parts := by
        cases h2 with
        | same => exact ⟨o, rfl, hx⟩
        | bus b b' hk hp =>
          refine ⟨b', rfl, ?_⟩
          rcases hp x hx with h | h
          · exact h
          · exact absurd (by rw [h]; exact List.mem_cons_self) hd
      obtain ⟨bo, e, hx'⟩ := this
      subst e
      exact ih (inv_step h e1) e2 h1 hx' (fun hb => hd (List.mem_cons_of_mem _ hb)) hl

end LP.Life
