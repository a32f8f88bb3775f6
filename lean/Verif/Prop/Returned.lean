import Verif.Lemma.Returned
import Verif.Prop.BusQueue
/-!
# C138: which calls wait for a callback that is running

`InCallback σ s` says that a callback of subscriber `s` has been invoked and has not returned. A client that is going to destroy
what the callback uses must know when that is over.
-/
namespace LP.Bus

/-- When `DeleteSubscriber` has returned on the bus of the subscriber, no callback of it is running, nor ever will be. -/
theorem C138_deleted_is_over (σ τ σ' : St) (as : List Act) (b s : Nat) (h : Reachable σ) (hb : s ∈ (σ.w.bus b).subs)
    (hd : step σ (.deleteSub b s) = some τ) (he : exec τ as = some σ') : ¬ InCallback σ' s := by
  have hi := h.inv
  have hhome := (hi.wok.subsHome b s hb).2
  have hx := step_external hi.wok (fun c e => by cases e) hd
  have hfree : holdsSubs b σ.phase = false := by
    simp only [step] at hd
    split at hd <;> try contradiction
    rename_i hy; exact hy.2.2
  have hq : ¬ InCallback τ s := by
    intro hc
    have hp : τ.phase = σ.phase := by
      simp only [step] at hd
      split at hd <;> try contradiction
      cases hd; rfl
    have hc' : InCallback σ s := by
      obtain ⟨⟨m, st, batch, k⟩, hl⟩ := hc
      exact ⟨⟨m, st, batch, by rw [← hp]; exact k⟩, by rw [← hx.log]; exact hl⟩
    obtain ⟨m, rest, st, batch, k, -, -⟩ := hc'.frame h.called
    rw [hhome] at k
    rw [k] at hfree
    simp [holdsSubs] at hfree
  have hg : Gone s τ := by
    simp only [step] at hd
    split at hd <;> try contradiction
    rename_i hy
    cases hd
    refine ⟨hy.2.1, ?_⟩
    intro c hc
    simp only [deleteSubscriber, outcome, World.setBus, World.setSub] at hc
    split at hc
    · simp at hc
    · rename_i hne
      exact hne ((hi.wok.subsHome c s hc).2.symm.trans hhome)
  exact gone_quiet_exec (inv_step hi hd) hg hq he

/-- While a callback runs, subscribers of its bus are neither created nor deleted, not even others: the calls wait. On every other
bus they do not. -/
theorem C138_waits_iff (σ : St) (h : Reachable σ) (s : Nat) (hc : InCallback σ s) (b : Nat) (hb : b < σ.w.nb) :
    (∀ s', s' < σ.w.ns → ((step σ (.deleteSub b s')).isSome = true ↔ b ≠ (σ.w.sub s).home)) ∧
    (∀ topic cb, (step σ (.createSub b topic cb)).isSome = true ↔ b ≠ (σ.w.sub s).home) := by
  obtain ⟨m, rest, st, batch, k, hst, -⟩ := hc.frame h.called
  have key : holdsSubs b σ.phase = false ↔ b ≠ (σ.w.sub s).home := by
    rw [k]
    simp only [holdsSubs, List.any_cons, Bool.or_eq_false_iff, beq_eq_false_iff_ne, ne_eq]
    constructor
    · exact fun h e => h.1 e.symm
    · intro hne
      refine ⟨fun e => hne e.symm, ?_⟩
      rw [List.any_eq_false]
      intro f hf
      obtain ⟨c, r, rfl⟩ := hst f hf
      simp
  refine ⟨fun s' hs' => ?_, fun topic cb => ?_⟩
  · rw [← key]
    simp only [step]
    split
    · rename_i hx; simp [hx.2.2]
    · rename_i hx
      have : ¬ holdsSubs b σ.phase = false := fun e => hx ⟨hb, hs', e⟩
      simp [this]
  · rw [← key]
    simp only [step]
    split
    · rename_i hx; simp [hx.2]
    · rename_i hx
      have : ¬ holdsSubs b σ.phase = false := fun e => hx ⟨hb, e⟩
      simp [this]

/-- The wait ends: if the callbacks return, the bus thread comes by itself, and without the help of any other thread, to a point
where the deletion succeeds. -/
theorem C138_wait_ends (σ : St) (h : Reachable σ) (s : Nat) (hc : InCallback σ s) : ∃ n σ' τ,
    exec σ (List.replicate n (.run .go)) = some σ' ∧ step σ' (.deleteSub (σ.w.sub s).home s) = some τ := by
  obtain ⟨m, rest, st, batch, k, hst, hs⟩ := hc.frame h.called
  obtain ⟨n, σ', k1, k2, k3⟩ := list_ends σ.w m (σ.w.sub s).home st batch rest true σ rfl k
  have hfree : holdsSubs (σ.w.sub s).home σ'.phase = false := by
    rw [k3]
    simp only [holdsSubs, List.any_cons, Bool.false_or]
    rw [List.any_eq_false]
    intro f hf
    obtain ⟨c, r, rfl⟩ := hst f hf
    simp
  have hnb := h.inv.wok.home s hs
  exact ⟨n, σ', _, k1, by simp only [step]; rw [if_pos ⟨by rw [k2]; exact hnb, by rw [k2]; exact hs, hfree⟩]⟩

/-- The calls that do not wait for a callback of `s`: stopping any bus, starting a child bus, setting another callback or none,
detaching, creating and deleting publishers, and `DeleteSubscriber` on a bus other than that of `s`. -/
def Hasty (σ : St) (s : Nat) : Act → Prop
  | .stop b => b < σ.w.nb
  | .startChild b => 0 < b ∧ b < σ.w.nb
  | .setCb s' _ => s' < σ.w.ns
  | .detachOne b => b < σ.w.nb
  | .createPub b _ => b < σ.w.nb
  | .deletePub b p => b < σ.w.nb ∧ p < σ.w.np
  | .deleteSub b s' => b < σ.w.nb ∧ s' < σ.w.ns ∧ b ≠ (σ.w.sub s).home
  | _ => False

/-- They return although the callback is still running. -/
theorem C138_returns_early (σ : St) (h : Reachable σ) (s : Nat) (hc : InCallback σ s) (a : Act) (ha : Hasty σ s a) :
    ∃ τ, step σ a = some τ ∧ InCallback τ s := by
  have done : ∀ τ : St, step σ a = some τ → (∀ c, a ≠ .run c) → ∃ τ, step σ a = some τ ∧ InCallback τ s := by
    intro τ hs hr
    have hx := step_external h.inv.wok hr hs
    obtain ⟨⟨m, st, batch, k⟩, hl⟩ := hc
    refine ⟨τ, hs, ⟨m, st, batch, ?_⟩, by rw [hx.log]; exact hl⟩
    rcases hx.phase with h1 | ⟨h1, _⟩ | ⟨h1, _⟩
    · rw [h1]; exact k
    · rw [h1] at k; cases k
    · rw [h1] at k; cases k
  cases a with
  | stop b => exact done _ (by simp only [Hasty] at ha; simp only [step]; rw [if_pos ha]) (fun _ e => by cases e)
  | startChild b => exact done _ (by simp only [Hasty] at ha; simp only [step]; rw [if_pos ha]) (fun _ e => by cases e)
  | setCb s' cb => exact done _ (by simp only [Hasty] at ha; simp only [step]; rw [if_pos ha]) (fun _ e => by cases e)
  | detachOne b => exact done _ (by simp only [Hasty] at ha; simp only [step]; rw [if_pos ha]) (fun _ e => by cases e)
  | createPub b t => exact done _ (by simp only [Hasty] at ha; simp only [step]; rw [if_pos ha]) (fun _ e => by cases e)
  | deletePub b p => exact done _ (by simp only [Hasty] at ha; simp only [step]; rw [if_pos ha]) (fun _ e => by cases e)
  | deleteSub b s' =>
    obtain ⟨h1, h2, h3⟩ := ha
    have := ((C138_waits_iff σ h s hc b h1).1 s' h2).2 h3
    obtain ⟨τ, hτ⟩ := Option.isSome_iff_exists.1 this
    exact done τ hτ (fun _ e => by cases e)
  | _ => exact ha.elim

/-- `DeletePublisher` and `Detach` do not wait for calls of `Publish` in progress either: each of them still puts its message into
the queue after they have returned. -/
theorem C138_publish_in_progress (σ τ : St) (a : Act) (ha : (∃ b p, a = .deletePub b p) ∨ ∃ b, a = .detachOne b)
    (hs : step σ a = some τ) (i : Nat) (m : BMsg) (hm : σ.inflight[i]? = some m) :
    ∃ σ', step τ (.push i) = some σ' ∧ σ'.published = σ.published ++ [m] ∧ σ'.w.queue = σ.w.queue ++ [m] := by
  rcases ha with ⟨b, p, rfl⟩ | ⟨b, rfl⟩
  · simp only [step] at hs
    split at hs <;> cases hs
    refine ⟨_, by simp only [step, hm]; rfl, rfl, ?_⟩
    simp only [Bus.push, deletePublisher, outcome, World.setBus, World.setPub]
  · simp only [step] at hs
    split at hs <;> cases hs
    exact ⟨_, by simp only [step, hm]; rfl, rfl, rfl⟩

/-- The subscriber whose callback is running. -/
def Ex.calling (σ : St) : Option Nat := match σ.phase with
  | .visit _ _ true _ => (σ.log.getLast?).map Delivery.sub
  | _ => none

theorem Ex.calling_iff {σ : St} {s : Nat} : Ex.calling σ = some s ↔ InCallback σ s := by
  unfold Ex.calling InCallback
  cases σ.phase with
  | visit m st cb batch => cases cb <;> simp
  | _ => simp

/-- The callback of the subscriber on the child bus is running, the one on the root is not; the subscribers of the root can be
deleted. -/
example : ∃ σ τ, Reachable σ ∧ InCallback σ 1 ∧ (σ.w.sub 1).home = 1 ∧ ¬ InCallback σ 0 ∧ 0 ∈ (σ.w.bus 0).subs ∧
    step σ (.deleteSub 0 0) = some τ ∧ Hasty σ 1 (.setCb 1 none) ∧ step σ (.deleteSub 1 1) = none := by
  obtain ⟨σ, σ', _, h, he, e⟩ := play_obs2 (bs "r") (setup ++ publication ++ [.start] ++ thread 13) [.deleteSub 0 0]
    (fun σ _ => (Ex.calling σ, (σ.w.sub 1).home, (σ.w.bus 0).subs.contains 0, decide (1 < σ.w.ns), (step σ (.deleteSub 1 1)).isSome))
    (some 1, 1, true, true, false) (by decide +kernel)
  simp only [Prod.mk.injEq, decide_eq_true_eq] at e
  obtain ⟨e1, e2, e3, e4, e5⟩ := e
  refine ⟨σ, σ', h, Ex.calling_iff.1 e1, e2, fun h => ?_, by simpa using e3, ?_, e4, by simpa using e5⟩
  · rw [Ex.calling_iff.2 h] at e1; cases e1
  · simp only [exec] at he
    cases hs : step σ (.deleteSub 0 0) with
    | none => rw [hs] at he; cases he
    | some τ => rw [hs] at he; exact he

/-- A publisher is deleted while a call of it is in progress. -/
example : ∃ σ τ m, Reachable σ ∧ step σ (.deletePub 1 0) = some τ ∧ σ.inflight[0]? = some m := by
  obtain ⟨σ, σ', _, h, he, e⟩ := play_obs2 (bs "r") (setup ++ [.pubPublish 0 (.value (.int 7))]) [.deletePub 1 0]
    (fun σ _ => σ.inflight.length) 1 (by decide +kernel)
  refine ⟨σ, σ', σ.inflight[0], h, ?_, List.getElem?_eq_getElem (by omega)⟩
  simp only [exec] at he
  cases hs : step σ (.deletePub 1 0) with
  | none => rw [hs] at he; cases he
  | some τ => rw [hs] at he; exact he

end LP.Bus
