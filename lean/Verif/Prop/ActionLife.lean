import Verif.Prop.Life
/-!
# C110: plugins that use actions
-/
namespace LP.Life

/-! ## C110 -/

/-- A step by which code of the library `l` gets into the object `x`: the library creates a subscriber, publisher, provider or
consumer, sets a callback, or requests with a callback of its own. -/
def Gives (σ : St) (l x : Nat) : Act → Prop
  | .createSub _ (some f) => f.lib = some l ∧ x = σ.n
  | .createPub _ lib => lib = some l ∧ x = σ.n
  | .createAct _ fn lib => (lib = some l ∧ (x = σ.n ∨ x = σ.n + 1)) ∨ ((∃ f, fn = some f ∧ f.lib = some l) ∧ x = σ.n + 2)
  | .setCb s (some f) => f.lib = some l ∧ x = s
  | .request a f => f.lib = some l ∧ x = a
  | _ => False

theorem part_of_act {σ σ1 : St} (h : Reachable σ) {b : Nat} {fn : Option Fn} {lib : Option Nat}
    (hc : step σ (.createAct b fn lib) = .to σ1) :
    σ1.obj (σ.n + 2) = some (.act fn.isSome σ.n (σ.n + 1) fn.toList) ∧ σ1.obj σ.n = some (.sub (some ⟨[σ.n + 2], lib⟩)) ∧
    σ1.obj (σ.n + 1) = some (.pub (some (b, lib))) ∧ ∃ o, σ1.obj b = some (.bus o) ∧ σ.n ∈ o.parts := by
  rcases step_to hc with ⟨y, hy, _⟩ | ⟨_, e⟩
  · cases hy
  · simp only [call] at e
    repeat' split at e
    all_goals cases e
    rename_i hh _ o ho
    have hn := lt_of_live h.inv ho
    simp only [St.hold, St.put, St.alloc]
    refine ⟨?_, ?_, ?_, ?_⟩
    · rw [if_neg (by omega)]; simp
    · rw [if_neg (by omega)]; simp; omega
    · rw [if_neg (by omega)]; simp
    · exact ⟨_, if_pos trivial, by simp⟩

/-- The subscriber and the publisher of an action stay what they are, and where they are. -/
theorem act_parts_stay : ∀ (as : List Act) {σ σ' : St}, Inv σ → exec σ as = .to σ' → ∀ {a s p : Nat} {k : Bool} {fs : List Fn}
    {x y : Obj}, σ.obj a = some (.act k s p fs) → σ.obj s = some x → σ.obj p = some y →
    σ'.obj s = some x ∧ σ'.obj p = some y ∧
    ∀ b o, σ.obj b = some (.bus o) → s ∈ o.parts → σ'.obj b ≠ none → ∃ o', σ'.obj b = some (.bus o') ∧ s ∈ o'.parts := by
  intro as
  induction as with
  | nil => intro σ σ' _ e a s p k fs x y ha hs hp; cases e; exact ⟨hs, hp, fun b o hb ho _ => ⟨o, hb, ho⟩⟩
  | cons c as ih =>
    intro σ σ' h e a s p k fs x y ha hs hp
    obtain ⟨σ1, e1, e2⟩ := exec_cons e
    obtain ⟨⟨lib, hs'⟩, ⟨fn, hp'⟩, ps, pp⟩ := h.act a k s p fs ha
    rw [hs] at hs'; cases hs'
    rw [hp] at hp'; cases hp'
    -- no call can be made on the two
    have nodel : ∀ b q, q = s ∨ q = p → c ≠ .delete b q := by
      intro b q hq hc
      subst hc
      rcases step_to e1 with ⟨_, hy, _⟩ | ⟨_, e⟩
      · cases hy
      · simp only [call] at e
        split at e
        · rename_i hh
          rcases hq with rfl | rfl
          · exact ps.1 hh.2
          · exact pp.1 hh.2
        · cases e
    have noset : ∀ cb, c ≠ .setCb s cb := by
      intro cb hc
      subst hc
      rcases step_to e1 with ⟨_, hy, _⟩ | ⟨_, e⟩
      · cases hy
      · simp only [call] at e
        split at e
        · rename_i hh; exact ps.1 hh.1
        · cases e
    obtain ⟨fs1, ha1, _⟩ := act_step h e1 ha
    have inv1 := inv_step h e1
    obtain ⟨⟨lib1, g1⟩, ⟨fn1, g2⟩, _⟩ := inv1.act a k s p fs1 ha1
    have hs1 : σ1.obj s = some (.sub (some ⟨[a], lib⟩)) := by
      rcases step_change h e1 hs with ⟨_, h1⟩ | ⟨o', h1, h2⟩
      · rw [h1] at g1; cases g1
      · cases h2 with
        | same => exact h1
        | sub cb cb' hy =>
          rcases hy with ⟨b, hy⟩ | ⟨cb, hy⟩
          · exact absurd hy (nodel b s (.inl rfl))
          · exact absurd hy (noset cb)
    have hp1 : σ1.obj p = some (.pub fn) := by
      rcases step_change h e1 hp with ⟨_, h1⟩ | ⟨o', h1, h2⟩
      · rw [h1] at g2; cases g2
      · cases h2 with
        | same => exact h1
        | pub fn b hy => exact absurd hy (nodel b p (.inr rfl))
    obtain ⟨k1, k2, k3⟩ := ih inv1 e2 ha1 hs1 hp1
    refine ⟨k1, k2, fun b o hb ho hl => ?_⟩
    have hn := lt_of_live h hb
    rcases step_change h e1 hb with ⟨_, h1⟩ | ⟨o', h1, h2⟩
    · exact absurd (dead_exec e2 (Nat.lt_of_lt_of_le hn (n_step e1)) h1) hl
    · have : ∃ bo, o' = .bus bo ∧ s ∈ bo.parts := by
        cases h2 with
        | same => exact ⟨o, rfl, ho⟩
        | bus b0 b' hk hp =>
          refine ⟨b', rfl, ?_⟩
          rcases hp s ho with h | h
          · exact h
          · exact absurd h (nodel b s (.inl rfl))
      obtain ⟨bo, e, ho'⟩ := this
      subst e
      exact k3 b bo h1 ho' hl

/-- Once code of a library has created an action provider or consumer on a bus, then whatever the program does, code of
that library stays in its subscriber and its publisher, and the subscriber stays registered as long as the bus lives. In
particular no careful program ever closes the library. -/
theorem C110_action_stays {σ σ1 σ2 : St} (h : Reachable σ) {b l : Nat} {fn : Option Fn}
    (hc : step σ (.createAct b fn (some l)) = .to σ1) {as : List Act} (he : exec σ1 as = .to σ2) :
    HasCode σ2 σ.n l ∧ HasCode σ2 (σ.n + 1) l ∧ ¬ Careful σ2 (.close l) ∧
    (LiveBus σ2 b → ∃ o, σ2.obj b = some (.bus o) ∧ σ.n ∈ o.parts) := by
  obtain ⟨ha, hs, hp, o, hb, ho⟩ := part_of_act h hc
  obtain ⟨k1, k2, k3⟩ := act_parts_stay as (inv_step h.inv hc) he ha hs hp
  have c1 : HasCode σ2 σ.n l := ⟨_, k1, by simp [Obj.code]⟩
  refine ⟨c1, ⟨_, k2, by simp [Obj.code]⟩, fun hk => hk _ c1, fun ⟨o', hl⟩ => k3 b o hb ho (by rw [hl]; exact fun h => by cases h)⟩

/-- So if the library is closed nevertheless, every request (or response) that reaches the bus from then on is undefined
behaviour. -/
theorem C110_message_undefined {σ σ1 σ2 : St} (h : Reachable σ) {b l : Nat} {fn : Option Fn}
    (hc : step σ (.createAct b fn (some l)) = .to σ1) {as : List Act} (he : exec σ1 as = .to σ2) (hl : l ∈ σ2.closed)
    (hb : LiveBus σ2 b) (hs : σ2.settled = true) (i : Nat) : step σ2 (.deliver b σ.n i) = .ub := by
  obtain ⟨ha, hsub, hp, o, hb1, ho⟩ := part_of_act h hc
  obtain ⟨k1, k2, k3⟩ := act_parts_stay as (inv_step h.inv hc) he ha hsub hp
  obtain ⟨o', e1, e2⟩ := k3 b o hb1 ho (by obtain ⟨o', hb⟩ := hb; rw [hb]; exact fun h => by cases h)
  have : σ2.runs (some l) = false := by simp [St.runs, hl]
  simp [step, hs, call, e1, k1, e2, this]

theorem cut_code {σ σ' : St} (ct : Cut σ σ') {x l : Nat} (h : HasCode σ' x l) : HasCode σ x l := by
  obtain ⟨o, ho, hc⟩ := h
  rcases ct.obj x with e | ⟨b, e, e'⟩
  · exact ⟨o, by rw [← e]; exact ho, hc⟩
  · rw [e'] at ho; cases ho; cases hc

theorem code_step {σ σ' : St} {y : Act} (hs : step σ y = .to σ') {x l : Nat} (hx : HasCode σ' x l) :
    (HasCode σ x l ∧ ∀ b, y ≠ .delete b x) ∨ Gives σ l x y := by
  obtain ⟨o, ho, hc⟩ := hx
  rcases step_to hs with ⟨z, hz, e⟩ | ⟨_, e⟩
  · obtain ⟨_, _, e⟩ := destroy_to e
    subst e; subst hz
    simp only [St.put] at ho
    split at ho
    · cases ho
    · exact .inl ⟨cut_code (cut_detach σ.n z σ) ⟨o, ho, hc⟩, fun b h => by cases h⟩
  · cases y with
    | delete b p =>
      left
      simp only [call] at e
      repeat' split at e
      all_goals cases e
      all_goals simp only [St.put] at ho
      all_goals refine ⟨?_, ?_⟩
      all_goals grind [HasCode, Obj.code]
    | detach b =>
      simp only [call] at e
      repeat' split at e
      all_goals cases e
      exact .inl ⟨cut_code (cut_detach σ.n b σ) ⟨o, ho, hc⟩, fun b h => by cases h⟩
    | _ =>
      simp only [call, publish, forward] at e
      repeat' split at e
      all_goals cases e
      all_goals try simp only [St.put, St.hold, St.alloc] at ho
      all_goals first
        | exact .inl ⟨⟨o, ho, hc⟩, fun b h => by cases h⟩
        | grind [HasCode, Obj.code, Gives, List.mem_of_mem_eraseIdx]

/-- Code of a library is only in objects into which code of the library put it, and which were not deleted since. -/
theorem C110_origin (l : Nat) : ∀ (as : List Act) {σ σ' : St}, exec σ as = .to σ' → ∀ x, HasCode σ' x l →
    (HasCode σ x l ∧ ∀ b, Act.delete b x ∉ as) ∨
    ∃ as1 y as2 τ, as = as1 ++ y :: as2 ∧ exec σ as1 = .to τ ∧ Gives τ l x y ∧ ∀ b, Act.delete b x ∉ as2 := by
  intro as
  induction as with
  | nil => intro σ σ' e x hx; cases e; exact .inl ⟨hx, fun _ h => by cases h⟩
  | cons y as ih =>
    intro σ σ' e x hx
    obtain ⟨σ1, e1, e2⟩ := exec_cons e
    rcases ih e2 x hx with ⟨h1, h2⟩ | ⟨as1, z, as2, τ, h1, h2, h3, h4⟩
    · rcases code_step e1 h1 with ⟨h3, h4⟩ | h3
      · refine .inl ⟨h3, fun b hb => ?_⟩
        rcases List.mem_cons.1 hb with h | h
        · exact h4 b h.symm
        · exact h2 b h
      · exact .inr ⟨[], y, as, σ, rfl, rfl, h3, h2⟩
    · exact .inr ⟨y :: as1, z, as2, τ, by rw [h1]; rfl, by simp only [exec, e1]; exact h2, h3, h4⟩

/-- So a plugin without actions that deletes what it created can be unloaded: if every object into which its code put code
was deleted afterwards, whatever happened besides, closing the library is careful. -/
theorem C110_without_actions {as : List Act} {σ : St} (l : Nat) (he : exec init as = .to σ)
    (hd : ∀ as1 y as2 τ x, as = as1 ++ y :: as2 → exec init as1 = .to τ → Gives τ l x y → ∃ b, Act.delete b x ∈ as2) :
    Careful σ (.close l) ∧ (σ.settled = true → ∃ σ', step σ (.close l) = .to σ' ∧ ∀ x, ¬ HasCode σ' x l) := by
  have none' : ∀ x, ¬ HasCode σ x l := by
    intro x hx
    rcases C110_origin l as he x hx with ⟨⟨o, ho, _⟩, _⟩ | ⟨as1, y, as2, τ, h1, h2, h3, h4⟩
    · cases ho
    · obtain ⟨b, hb⟩ := hd as1 y as2 τ x h1 h2 h3
      exact h4 b hb
  refine ⟨none', fun hs => ⟨{ σ with closed := l :: σ.closed }, by simp [step, hs, call], fun x hx => none' x hx⟩⟩

/-! The plugins of the project, each on a child bus 1 of the root 0 as library 7. -/

namespace Ex
/-- `SysInfo::Initialize` (SysInfo.cpp:17-43): publisher 2, subscriber 3, provider 6 with its subscriber 4 and publisher 5. -/
def sysInit : List Act := [.createPub 1 (some 7), .createSub 1 (some ⟨[], some 7⟩), .createAct 1 (some ⟨[], some 7⟩) (some 7)]
/-- `SysInfo::Deinitialize` (SysInfo.cpp:61-68), destruction of the instance, unloading (PluginTemplate.cpp:56,
PluginManager.cpp:193). -/
def sysEnd : List Act := [.delete 1 3, .drop 3, .destroy 3, .delete 1 2, .drop 2, .destroy 2, .drop 6, .drop 1, .close 7]
/-- `Link::Initialize` (Link.cpp:71-97): subscriber 2, first without a callback. -/
def linkInit : List Act := [.createSub 1 none, .setCb 2 (some ⟨[], some 7⟩)]
/-- `Link::Deinitialize` (Link.cpp:281-282), destruction of the instance, unloading. -/
def linkEnd : List Act := [.delete 1 2, .drop 2, .destroy 2, .drop 1, .close 7]
end Ex

-- SysInfo is unloaded and leaves the three objects of its action, with code of the closed library, on its bus
example : outcome ([.newRoot, .createChild 0] ++ Ex.sysInit ++ Ex.sysEnd) (fun σ => σ.settled && σ.held == [0] &&
    (List.range σ.n).all (fun i => (σ.obj i).isSome == (i < 2 || (3 < i && i < 7))) &&
    [4, 5, 6].all (fun i => match σ.obj i with | some o => σ.stale o | none => false)) = some true := by decide +kernel
-- the next request is undefined
example : outcome ([.newRoot, .createChild 0] ++ Ex.sysInit ++ Ex.sysEnd ++ [.deliver 1 4 0]) (fun _ => true) = none := by
  decide +kernel
-- unless there is none: the host detaches its buses, unloads, and releases the root
example : outcome ([.newRoot, .createChild 0] ++ Ex.sysInit ++ [.detach 0] ++ Ex.sysEnd ++ [.drop 0, .destroy 0, .destroy 1])
    (fun σ => σ.settled && (List.range σ.n).all (fun i => (σ.obj i).isSome == (3 < i && i < 7))) = some true := by decide +kernel
-- the link leaves nothing but its bus
example : outcome ([.newRoot, .createChild 0] ++ Ex.linkInit ++ [.deliver 1 2 0, .busPublish 1] ++ Ex.linkEnd) (fun σ => σ.settled &&
    σ.held == [0] && (σ.obj 2).isNone && (List.range σ.n).all (fun i => match σ.obj i with | some o => !σ.stale o | none => true)) =
    some true := by decide +kernel
-- the hypothesis of the last theorem is met by a plugin that creates a subscriber and deletes it
example : ∃ σ, exec init [.newRoot, .createSub 0 (some ⟨[], some 7⟩), .delete 0 1] = .to σ ∧ Careful σ (.close 7) := by
  refine ⟨_, rfl, (C110_without_actions (as := [.newRoot, .createSub 0 (some ⟨[], some 7⟩), .delete 0 1]) 7 rfl ?_).1⟩
  intro as1 y as2 τ x h1 h2 h3
  rcases as1 with _ | ⟨a, _ | ⟨b, _ | ⟨c, as1⟩⟩⟩
  · simp at h1; rw [← h1.1] at h3; cases h3
  · simp at h1
    obtain ⟨e1, e2, e3⟩ := h1
    subst e1; subst e2; subst e3
    cases h2
    obtain ⟨_, e⟩ := h3
    exact ⟨0, by rw [e]; simp [St.hold, St.alloc, init]⟩
  · simp at h1; rw [← h1.2.2.1] at h3; cases h3
  · simp at h1

end LP.Life
