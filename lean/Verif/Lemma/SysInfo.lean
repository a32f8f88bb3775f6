import Verif.Spec.SysInfo
import Verif.Lemma.ActionTalk
/-!
# Invariants of the SysInfo plugin
-/
namespace LP.SysInfo
open LP.Action (Next Ev Prov)
open LP.Bus (Delivery)

theorem lift_inv {r : Next Action.St} {k : Action.St → St} {σ' : St} (h : lift r k = .to σ') : ∃ w, r = .to w ∧ σ' = k w := by
  cases r with
  | cannot => simp [lift] at h
  | undefined => simp [lift] at h
  | to w => simp [lift] at h; exact ⟨w, rfl, h.symm⟩

/-- `step` as a relation. -/
inductive Eff (σ : St) : Act → St → Prop
  | world (a : Action.Act) (w : Action.St) : touches σ a = false → (mine σ = true → byCallback a = false) →
      Action.step σ.world a = .to w → Eff σ (.world a) { σ with world := w }
  | init0 (w : Action.St) : σ.life = .initialising 0 → Action.step σ.world (.bus (.createPub σ.bus topic)) = .to w →
      Eff σ .init { σ with world := w, pub := some σ.world.bus.w.np, life := .initialising 1 }
  | init1 (w : Action.St) : σ.life = .initialising 1 → Action.step σ.world (.bus (.createSub σ.bus topic (some 0))) = .to w →
      Eff σ .init { σ with world := w, sub := some σ.world.bus.w.ns, life := .initialising 2 }
  | init2 (w : Action.St) : σ.life = .initialising 2 →
      Action.step σ.world (.bus (.createSub σ.bus (Action.requestTopic actionTopic) none)) = .to w →
      Eff σ .init { σ with world := w, rsub := some σ.world.bus.w.ns, life := .initialising 3 }
  | init3 (w : Action.St) : σ.life = .initialising 3 →
      Action.step σ.world (.bus (.createPub σ.bus (Action.responseTopic actionTopic))) = .to w →
      Eff σ .init { σ with world := w, rpub := some σ.world.bus.w.np, life := .initialising 4 }
  | init4 (s q : Nat) (w : Action.St) : σ.life = .initialising 4 → σ.rsub = some s → σ.rpub = some q →
      Action.step σ.world (.provider s q actionTopic (some 0)) = .to w →
      Eff σ .init { σ with world := w, prov := some σ.world.provs.length, life := .loaded }
  | beat (q : Nat) (w : Action.St) : σ.life = .loaded → σ.send = true → σ.pub = some q →
      Action.step σ.world (.bus (.pubPublish q greeting)) = .to w → Eff σ .beat { σ with world := w }
  | unsub (s : Nat) (w : Action.St) : σ.life = .loaded → σ.sub = some s →
      Action.step σ.world (.bus (.deleteSub σ.bus s)) = .to w → Eff σ .deinit { σ with world := w, life := .unsubscribed }
  | unpub (q : Nat) (w : Action.St) : σ.life = .unsubscribed → σ.pub = some q →
      Action.step σ.world (.bus (.deletePub σ.bus q)) = .to w → Eff σ .deinit { σ with world := w, life := .deinitialised }
  | destroy : σ.life = .deinitialised → Eff σ .destroy { σ with life := .destroyed }
  | respond (p : Nat) (id : Str) (w : Action.St) : σ.world.cur = .providing p id → σ.prov = some p → σ.said = false →
      σ.life ≠ .destroyed → Action.step σ.world (.respond p id reply) = .to w → Eff σ .code { σ with world := w, said := true }
  | leave (p : Nat) (id : Str) (w : Action.St) : σ.world.cur = .providing p id → σ.prov = some p → σ.said = true →
      σ.life ≠ .destroyed → Action.step σ.world (.run .go) = .to w → Eff σ .code { σ with world := w, said := false }
  | heard (d : Delivery) (w : Action.St) : σ.world.cur = .plain → σ.world.bus.log.getLast? = some d → σ.sub = some d.sub →
      σ.life ≠ .destroyed → Action.step σ.world (.run (if isString d.msg.dg then .go else .throwing)) = .to w →
      Eff σ .code { σ with world := w }

theorem step_eff {σ σ' : St} {a : Act} (h : step σ a = .to σ') : Eff σ a σ' := by
  cases a with
  | world a =>
    simp only [step] at h
    split at h
    · cases h
    · rename_i hn
      obtain ⟨w, hw, rfl⟩ := lift_inv h
      refine .world a w ?_ ?_ hw
      · cases ht : touches σ a with
        | false => rfl
        | true => exact absurd (.inl ht) hn
      · intro hm
        cases hb : byCallback a with
        | false => rfl
        | true => exact absurd (.inr ⟨hm, hb⟩) hn
  | init =>
    simp only [step] at h
    split at h
    · rename_i n hl
      unfold initStep at h
      split at h
      · obtain ⟨w, hw, rfl⟩ := lift_inv h; exact .init0 w hl hw
      · obtain ⟨w, hw, rfl⟩ := lift_inv h; exact .init1 w hl hw
      · obtain ⟨w, hw, rfl⟩ := lift_inv h; exact .init2 w hl hw
      · obtain ⟨w, hw, rfl⟩ := lift_inv h; exact .init3 w hl hw
      · split at h
        · rename_i s q h1 h2
          obtain ⟨w, hw, rfl⟩ := lift_inv h; exact .init4 s q w hl h1 h2 hw
        · cases h
      · cases h
    · cases h
  | beat =>
    simp only [step] at h
    split at h
    · rename_i hl
      split at h
      · rename_i q hq
        obtain ⟨w, hw, rfl⟩ := lift_inv h; exact .beat q w hl.1 hl.2 hq hw
      · cases h
    · cases h
  | deinit =>
    simp only [step] at h
    split at h
    · rename_i hl
      split at h
      · rename_i q hq
        obtain ⟨w, hw, rfl⟩ := lift_inv h; exact .unsub q w hl hq hw
      · cases h
    · rename_i hl
      split at h
      · rename_i q hq
        obtain ⟨w, hw, rfl⟩ := lift_inv h; exact .unpub q w hl hq hw
      · cases h
    · cases h
  | destroy =>
    simp only [step] at h
    split at h
    · rename_i hl; cases h; exact .destroy hl
    · cases h
  | code =>
    simp only [step, codeStep] at h
    split at h
    · cases h
    · rename_i hm
      split at h
      · cases h
      · rename_i hd
        split at h
        · rename_i p id hc
          have hp : σ.prov = some p := by simpa [mine, hc] using hm
          split at h
          · rename_i hsd
            obtain ⟨w, hw, rfl⟩ := lift_inv h
            exact .leave p id w hc hp hsd hd hw
          · rename_i hsd
            obtain ⟨w, hw, rfl⟩ := lift_inv h
            exact .respond p id w hc hp (by simpa using hsd) hd hw
        · rename_i hc
          split at h
          · rename_i d hl
            obtain ⟨w, hw, rfl⟩ := lift_inv h
            have : σ.world.cur = .plain ∧ σ.sub = some d.sub := by
              unfold mine at hm
              split at hm
              · rename_i p id hc'; exact absurd hc' (hc p id)
              · rename_i hc'
                rw [hl] at hm
                exact ⟨hc', by simpa using hm⟩
              · simp at hm
            exact .heard d w this.1 hl this.2 hd hw
          · cases h

theorem exec_cons {σ σ' : St} {a : Act} {as : List Act} (h : exec σ (a :: as) = .to σ') :
    ∃ τ, step σ a = .to τ ∧ exec τ as = .to σ' := by
  simp only [exec] at h
  cases hs : step σ a with
  | cannot => simp [hs] at h
  | undefined => simp [hs] at h
  | to τ => simp [hs] at h; exact ⟨τ, rfl, h⟩

theorem exec_append {σ τ σ' : St} {as bs : List Act} (h : exec σ as = .to τ) (h' : exec τ bs = .to σ') :
    exec σ (as ++ bs) = .to σ' := by
  induction as generalizing σ with
  | nil => cases h; exact h'
  | cons a as ih =>
    obtain ⟨ρ, h1, h2⟩ := exec_cons h
    simp only [List.cons_append, exec, h1]
    exact ih h2

/-- The event of the hierarchy behind an event, if any. -/
def under (σ : St) : Act → Option Action.Act
  | .world a => some a
  | .init => match σ.life with
    | .initialising 0 => some (.bus (.createPub σ.bus topic))
    | .initialising 1 => some (.bus (.createSub σ.bus topic (some 0)))
    | .initialising 2 => some (.bus (.createSub σ.bus (Action.requestTopic actionTopic) none))
    | .initialising 3 => some (.bus (.createPub σ.bus (Action.responseTopic actionTopic)))
    | _ => match σ.rsub, σ.rpub with
      | some s, some q => some (.provider s q actionTopic (some 0))
      | _, _ => none
  | .beat => σ.pub.map (fun q => .bus (.pubPublish q greeting))
  | .deinit => if σ.life = .loaded then σ.sub.map (fun s => .bus (.deleteSub σ.bus s)) else σ.pub.map (fun q => .bus (.deletePub σ.bus q))
  | .destroy => none
  | .code => match σ.world.cur with
    | .providing p id => some (if σ.said then .run .go else .respond p id reply)
    | _ => σ.world.bus.log.getLast?.map (fun d => .run (if isString d.msg.dg then .go else .throwing))

theorem under_step {σ σ' : St} {a : Act} (h : step σ a = .to σ') :
    (under σ a = none ∧ σ'.world = σ.world) ∨ ∃ x, under σ a = some x ∧ Action.step σ.world x = .to σ'.world := by
  cases step_eff h with
  | world a w h1 h2 h3 => exact .inr ⟨_, rfl, h3⟩
  | init0 w h1 h2 => exact .inr ⟨_, by simp only [under, h1], h2⟩
  | init1 w h1 h2 => exact .inr ⟨_, by simp only [under, h1], h2⟩
  | init2 w h1 h2 => exact .inr ⟨_, by simp only [under, h1], h2⟩
  | init3 w h1 h2 => exact .inr ⟨_, by simp only [under, h1], h2⟩
  | init4 s q w h1 h2 h3 h4 => exact .inr ⟨_, by simp only [under, h1, h2, h3], h4⟩
  | beat q w h1 h2 h3 h4 => exact .inr ⟨_, by simp only [under, h3, Option.map], h4⟩
  | unsub s w h1 h2 h3 => exact .inr ⟨_, by simp [under, h1, h2], h3⟩
  | unpub q w h1 h2 h3 => exact .inr ⟨_, by simp only [under, h1, h2, reduceCtorEq, if_false, Option.map], h3⟩
  | destroy h1 => exact .inl ⟨rfl, rfl⟩
  | respond p id w h1 h2 h3 h4 h5 => exact .inr ⟨_, by simp only [under, h1, h3]; rfl, h5⟩
  | leave p id w h1 h2 h3 h4 h5 => exact .inr ⟨_, by simp only [under, h1, h3]; rfl, h5⟩
  | heard d w h1 h2 h3 h4 h5 => exact .inr ⟨_, by simp only [under, h1, h2, Option.map], h5⟩

/-- The events of the hierarchy behind a sequence of events. -/
def unders (σ : St) : List Act → List Action.Act
  | [] => []
  | a :: as => (under σ a).toList ++ (match step σ a with | .to σ' => unders σ' as | _ => [])

theorem unders_exec {σ σ' : St} {as : List Act} (h : exec σ as = .to σ') : Action.exec σ.world (unders σ as) = .to σ'.world := by
  induction as generalizing σ with
  | nil => cases h; rfl
  | cons a as ih =>
    obtain ⟨τ, h1, h2⟩ := exec_cons h
    simp only [unders, h1]
    rcases under_step h1 with ⟨e, hw⟩ | ⟨x, e, hw⟩
    · rw [e]; simp only [Option.toList, List.nil_append]; rw [← hw]; exact ih h2
    · rw [e]; simp only [Option.toList, List.cons_append, List.nil_append, Action.exec, hw]; exact ih h2

theorem unders_throughout {P : Action.St → Prop} {σ σ' : St} {as : List Act} (h : exec σ as = .to σ') (ht : Throughout P σ as) :
    Action.Throughout P σ.world (unders σ as) := by
  induction as generalizing σ with
  | nil => exact ht
  | cons a as ih =>
    obtain ⟨τ, h1, h2⟩ := exec_cons h
    simp only [unders, h1]
    rcases under_step h1 with ⟨e, hw⟩ | ⟨x, e, hw⟩
    · rw [e]; simp only [Option.toList, List.nil_append]; rw [← hw]; exact ih h2 (ht.2 _ h1)
    · rw [e]; simp only [Option.toList, List.cons_append, List.nil_append]
      refine ⟨ht.1, fun w' hw' => ?_⟩
      rw [hw] at hw'; cases hw'; exact ih h2 (ht.2 _ h1)

theorem exec_induct {P : St → Prop} (hstep : ∀ σ a σ', P σ → step σ a = .to σ' → P σ') {σ σ' : St} {as : List Act}
    (hp : P σ) (he : exec σ as = .to σ') : P σ' := by
  induction as generalizing σ with
  | nil => cases he; exact hp
  | cons a as ih =>
    obtain ⟨τ, h1, h2⟩ := exec_cons he
    exact ih (hstep _ _ _ hp h1) h2

theorem Reachable.exec {σ σ' : St} {as : List Act} (h : Reachable σ) (he : SysInfo.exec σ as = .to σ') : Reachable σ' := by
  obtain ⟨w, b, s, bs, hw, hb⟩ := h
  exact ⟨w, b, s, _, hw, exec_append hb he⟩

theorem Reachable.step {σ σ' : St} {a : Act} (h : Reachable σ) (he : SysInfo.step σ a = .to σ') : Reachable σ' :=
  h.exec (as := [a]) (by simp [SysInfo.exec, he])

theorem Reachable.world {σ : St} (h : Reachable σ) : Action.Reachable σ.world := by
  obtain ⟨w, b, s, bs, hw, hb⟩ := h
  exact hw.exec (unders_exec hb)

end LP.SysInfo
