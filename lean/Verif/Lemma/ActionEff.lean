import Verif.Lemma.ActionBus
/-!
# The effect of each event, spelled out
-/
namespace LP.Action
open LP.Bus (Delivery)

/-- `step` as a relation, one rule per kind of event. -/
inductive Eff (σ : St) : Act → St → Prop
  | client (a : Bus.Act) (b : Bus.St) : clientMay σ a = true → Bus.step σ.bus a = some b → Eff σ (.bus a) { σ with bus := b }
  | endCb (c : Bus.Choice) (b : Bus.St) : blocked σ = false → Bus.rstep c σ.bus = some b → inCb σ.bus.phase = true →
      inCb b.phase = false → b.log = σ.bus.log → mayEnd σ.cur c = true → Eff σ (.run c) (endCb σ b c)
  | quiet (c : Bus.Choice) (b : Bus.St) : blocked σ = false → Bus.rstep c σ.bus = some b → inCb σ.bus.phase = false →
      inCb b.phase = false → b.log = σ.bus.log → Eff σ (.run c) { σ with bus := b }
  | deliver (c : Bus.Choice) (b : Bus.St) (d : Delivery) : blocked σ = false → Bus.rstep c σ.bus = some b →
      inCb σ.bus.phase = false → inCb b.phase = true → b.log = σ.bus.log ++ [d] → (σ.bus.w.sub d.sub).cb = some d.cb →
      Eff σ (.run c) (dispatch { σ with bus := b } d)
  | test (c : Nat) (id : Str) (n : Nat) (t : Tree) (f : Frame) : σ.cur = .answering c id (.frame n) t .test →
      σ.frames[n]? = some f → f.pc ≠ .done →
      Eff σ .lambda { σ with cur := .answering c id (.frame n) t (if f.waiting then .store else .over) }
  | store (c : Nat) (id : Str) (n : Nat) (t : Tree) (f : Frame) : σ.cur = .answering c id (.frame n) t .store →
      σ.frames[n]? = some f → f.pc ≠ .done →
      Eff σ .lambda { σ with cur := .answering c id (.frame n) t .flag, frames := σ.frames.set n { f with response := t } }
  | flag (c : Nat) (id : Str) (n : Nat) (t : Tree) (f : Frame) : σ.cur = .answering c id (.frame n) t .flag →
      σ.frames[n]? = some f → f.pc ≠ .done →
      Eff σ .lambda { σ with cur := .answering c id (.frame n) t .wake, frames := σ.frames.set n { f with waiting := false } }
  | wake (c : Nat) (id : Str) (n : Nat) (t : Tree) (f : Frame) : σ.cur = .answering c id (.frame n) t .wake →
      σ.frames[n]? = some f → f.pc ≠ .done →
      Eff σ .lambda { σ with cur := .answering c id (.frame n) t .over
                             frames := σ.frames.set n { f with pc := if f.pc = .asleep then .check else f.pc } }
  | consumer (q s : Nat) (topic : Str) (b : Bus.St) : q < σ.bus.w.np → s < σ.bus.w.ns →
      (σ.bus.w.pub q).topic = requestTopic topic → (σ.bus.w.sub s).topic = responseTopic topic →
      (σ.bus.w.sub s).cb = none → (σ.bus.w.pub q).active = true → (σ.bus.w.pub q).bus = (σ.bus.w.sub s).home →
      s ∈ (σ.bus.w.bus (σ.bus.w.sub s).home).subs → ownedSub σ s = false → ownedPub σ q = false →
      Bus.step σ.bus (.setCb s (some (3 * σ.cons.length + 1))) = some b →
      Eff σ (.consumer q s topic) { σ with bus := b, cons := σ.cons ++ [⟨topic, s, q, []⟩] }
  | provider (s q : Nat) (topic : Str) (cb : Option Nat) (b : Bus.St) : q < σ.bus.w.np → s < σ.bus.w.ns →
      (σ.bus.w.pub q).topic = responseTopic topic → (σ.bus.w.sub s).topic = requestTopic topic →
      (σ.bus.w.sub s).cb = none → (σ.bus.w.pub q).active = true → (σ.bus.w.pub q).bus = (σ.bus.w.sub s).home →
      s ∈ (σ.bus.w.bus (σ.bus.w.sub s).home).subs → ownedSub σ s = false → ownedPub σ q = false →
      Bus.step σ.bus (.setCb s (some (3 * σ.provs.length + 2))) = some b →
      Eff σ (.provider s q topic cb) { σ with bus := b, provs := σ.provs ++ [⟨topic, s, q, cb⟩] }
  | reset (p : Nat) : Eff σ (.resetProvider p) { σ with provs := σ.provs.modify p (fun x => { x with cb := none }) }
  | request (c : Nat) (id : Str) (k : Nat) (t : Tree) (x : Cons) : σ.cons[c]? = some x →
      Eff σ (.request c id k t) (register σ c x id (.user k) t none)
  | begin (c : Nat) (id : Str) (t : Tree) (onBus : Bool) (x : Cons) : σ.cons[c]? = some x →
      (onBus = true → clientCode σ.cur = true ∧ blocked σ = false) →
      Eff σ (.begin c id t onBus) { register σ c x id (.frame σ.frames.length) t (some σ.frames.length) with
              frames := σ.frames ++ [⟨c, id, .sending, true, .empty, none⟩]
              inside := if onBus then some σ.frames.length else σ.inside }
  | send (i : Nat) (p : Pending) (x : Cons) (b : Bus.St) : σ.pending[i]? = some p → σ.cons[p.cons]? = some x →
      Bus.step σ.bus (.pubPublish x.pub (envelope (bs "request") p.id p.request)) = some b →
      Eff σ (.send i) { σ with bus := b, pending := σ.pending.eraseIdx i
                               frames := match p.frame with
                                 | none => σ.frames
                                 | some n => σ.frames.modify n (fun f => { f with pc := .check }) }
  | respond (p : Nat) (id : Str) (t : Tree) (x : Prov) (b : Bus.St) : σ.provs[p]? = some x →
      Bus.step σ.bus (.pubPublish x.pub (envelope (bs "response") id t)) = some b →
      Eff σ (.respond p id t) { σ with bus := b, replied := σ.replied ++ [(p, id, t)] }
  | look (n : Nat) (f : Frame) : σ.frames[n]? = some f → f.pc = .check → f.waiting = true →
      Eff σ (.wait n) { σ with frames := σ.frames.set n { f with pc := .drowsy } }
  | leave (n : Nat) (f : Frame) : σ.frames[n]? = some f → f.pc = .check → f.waiting = false →
      Eff σ (.wait n) { σ with frames := σ.frames.set n (finish f) }
  | sleep (n : Nat) (f : Frame) : σ.frames[n]? = some f → f.pc = .drowsy →
      Eff σ (.wait n) { σ with frames := σ.frames.set n { f with pc := .asleep } }
  | spurious (n : Nat) (f : Frame) : σ.frames[n]? = some f → f.pc = .asleep →
      Eff σ (.wait n) { σ with frames := σ.frames.set n { f with pc := .check } }
  | timeout (n : Nat) (f : Frame) : σ.frames[n]? = some f → f.pc = .asleep →
      Eff σ (.timeout n) { σ with frames := σ.frames.set n (finish f) }

theorem lift_inv {r : Option Bus.St} {k : Bus.St → St} {σ' : St} (h : lift r k = .to σ') : ∃ b, r = some b ∧ σ' = k b := by
  cases r with
  | none => simp [lift] at h
  | some b => simp [lift] at h; exact ⟨b, rfl, h.symm⟩

theorem step_eff {σ σ' : St} {a : Act} (h : step σ a = .to σ') : Eff σ a σ' := by
  cases a with
  | bus a =>
    simp only [step] at h
    split at h
    · rename_i hc
      obtain ⟨b, hb, rfl⟩ := lift_inv h
      exact .client a b hc hb
    · cases h
  | run c =>
    simp only [step] at h
    obtain ⟨hn, b, hb, h | h | h⟩ := run_cases h
    · obtain ⟨h1, h2, h3, h4, rfl⟩ := h
      exact .endCb c b hn hb h1 h2 h3 h4
    · obtain ⟨h1, h2, h3, rfl⟩ := h
      exact .quiet c b hn hb h1 h2 h3
    · obtain ⟨h1, h2, d, h3, h4, rfl⟩ := h
      exact .deliver c b d hn hb h1 h2 h3 h4
  | lambda =>
    simp only [step, lambda] at h
    split at h <;> try cases h
    rename_i c id n t stage hc
    split at h <;> try cases h
    rename_i f hf
    split at h <;> try cases h
    split at h <;> try cases h
    rename_i hd
    split at h <;> cases h
    · exact .test c id n t f hc hf hd
    · exact .store c id n t f hc hf hd
    · exact .flag c id n t f hc hf hd
    · exact .wake c id n t f hc hf hd
  | consumer q s topic =>
    simp only [step] at h
    split at h <;> try cases h
    rename_i hc
    obtain ⟨b, hb, rfl⟩ := lift_inv h
    obtain ⟨h1, h2, h3, h4, h5, h6, h7, h8, h9, h10⟩ := hc
    exact .consumer q s topic b h1 h2 h3 h4 h5 h6 h7 h8 h9 h10 hb
  | provider s q topic cb =>
    simp only [step] at h
    split at h <;> try cases h
    rename_i hc
    obtain ⟨b, hb, rfl⟩ := lift_inv h
    obtain ⟨h1, h2, h3, h4, h5, h6, h7, h8, h9, h10⟩ := hc
    exact .provider s q topic cb b h1 h2 h3 h4 h5 h6 h7 h8 h9 h10 hb
  | resetProvider p => cases h; exact .reset p
  | request c id k t =>
    simp only [step] at h
    split at h <;> cases h
    rename_i x hx
    exact .request c id k t x hx
  | begin c id t onBus =>
    simp only [step] at h
    split at h <;> try cases h
    rename_i x hx
    split at h <;> cases h
    rename_i hc
    refine .begin c id t onBus x hx (fun ho => ?_)
    constructor
    · cases hcc : clientCode σ.cur with
      | true => rfl
      | false => exact absurd ⟨ho, .inl hcc⟩ hc
    · cases hcc : blocked σ with
      | false => rfl
      | true => exact absurd ⟨ho, .inr hcc⟩ hc
  | send i =>
    simp only [step] at h
    split at h <;> try cases h
    rename_i p hp
    split at h <;> try cases h
    rename_i x hx
    obtain ⟨b, hb, rfl⟩ := lift_inv h
    exact .send i p x b hp hx hb
  | respond p id t =>
    simp only [step] at h
    split at h <;> try cases h
    rename_i x hx
    obtain ⟨b, hb, rfl⟩ := lift_inv h
    exact .respond p id t x b hx hb
  | wait n =>
    simp only [step] at h
    split at h <;> try cases h
    rename_i f hf
    split at h <;> cases h
    · rename_i hp
      cases hw : f.waiting with
      | true => rw [if_pos rfl]; simpa only [hw] using Eff.look n f hf hp hw
      | false => rw [if_neg (by decide)]; exact Eff.leave n f hf hp hw
    · rename_i hp; exact .sleep n f hf hp
    · rename_i hp; exact .spurious n f hf hp
  | timeout n =>
    simp only [step] at h
    split at h <;> try cases h
    rename_i f hf
    split at h <;> cases h
    rename_i hp
    exact .timeout n f hf hp

/-! ## Executions -/

theorem exec_cons {σ σ' : St} {a : Act} {as : List Act} (h : exec σ (a :: as) = .to σ') :
    ∃ τ, step σ a = .to τ ∧ exec τ as = .to σ' := by
  simp only [exec] at h
  cases hs : step σ a with
  | cannot => simp [hs] at h
  | undefined => simp [hs] at h
  | to τ => simp only [hs] at h; exact ⟨τ, rfl, h⟩

theorem exec_append {σ τ σ' : St} {as bs : List Act} (h : exec σ as = .to τ) (h' : exec τ bs = .to σ') :
    exec σ (as ++ bs) = .to σ' := by
  induction as generalizing σ with
  | nil => cases h; exact h'
  | cons a as ih =>
    obtain ⟨ρ, h1, h2⟩ := exec_cons h
    simp only [List.cons_append, exec, h1]
    exact ih h2

theorem exec_induct {P : St → Prop} (hstep : ∀ σ a σ', P σ → step σ a = .to σ' → P σ') {σ σ' : St} {as : List Act}
    (hp : P σ) (he : exec σ as = .to σ') : P σ' := by
  induction as generalizing σ with
  | nil => cases he; exact hp
  | cons a as ih =>
    obtain ⟨ρ, h1, h2⟩ := exec_cons he
    exact ih (hstep _ _ _ hp h1) h2

theorem exec_induct_along {P : St → Prop} {Q : St → Act → Prop}
    (hstep : ∀ σ a σ', P σ → Q σ a → step σ a = .to σ' → P σ') {σ σ' : St} {as : List Act}
    (hp : P σ) (hq : Along Q σ as) (he : exec σ as = .to σ') : P σ' := by
  induction as generalizing σ with
  | nil => cases he; exact hp
  | cons a as ih =>
    obtain ⟨ρ, h1, h2⟩ := exec_cons he
    exact ih (hstep _ _ _ hp hq.1 h1) (hq.2 _ h1) h2

theorem exec_bus {σ σ' : St} {as : List Act} (h : exec σ as = .to σ') :
    ∃ l, Bus.exec σ.bus l = some σ'.bus ∧ (.run .throwing ∈ l → .run .throwing ∈ as) ∧
      ∀ P : Bus.St → Prop, Throughout (fun τ => P τ.bus) σ as → Bus.Throughout P σ.bus l := by
  induction as generalizing σ with
  | nil => cases h; exact ⟨[], rfl, by simp, fun P h => h⟩
  | cons a as ih =>
    obtain ⟨τ, h1, h2⟩ := exec_cons h
    obtain ⟨l1, e1, e2, e3⟩ := step_bus h1
    obtain ⟨l2, f1, f2, f3⟩ := ih h2
    refine ⟨l1 ++ l2, ?_, ?_, ?_⟩
    · rw [Bus.exec_append, e1]; exact f1
    · intro h
      rcases List.mem_append.1 h with h | h
      · rw [e3 h]; exact List.mem_cons_self
      · exact List.mem_cons_of_mem _ (f2 h)
    · intro P hP
      have ht := f3 P (hP.2 τ h1)
      match l1, e1, e2 with
      | [], e1, _ =>
        simp only [Bus.exec, Option.some.injEq] at e1
        rw [e1]; exact ht
      | [x], e1, _ =>
        refine ⟨hP.1, fun ρ hρ => ?_⟩
        simp only [Bus.exec, hρ, Option.some.injEq] at e1
        rw [e1]; exact ht
      | _ :: _ :: _, _, e2 => simp at e2

theorem initial_bus {name : Str} {σ : St} (h : initial name = some σ) :
    ∃ b, Bus.initial name = some b ∧ σ = ⟨b, [], [], [], [], .idle, none, [], [], [], []⟩ := by
  unfold initial at h
  cases hb : Bus.initial name with
  | none => simp [hb] at h
  | some b => simp [hb] at h; exact ⟨b, rfl, h.symm⟩

theorem Reachable.bus {σ : St} (h : Reachable σ) : Bus.Reachable σ.bus := by
  obtain ⟨name, σ₀, as, h0, he⟩ := h
  obtain ⟨b, hb, rfl⟩ := initial_bus h0
  obtain ⟨l, hl, _⟩ := exec_bus he
  exact ⟨name, b, l, hb, hl⟩

theorem Reachable.exec {σ σ' : St} {as : List Act} (h : Reachable σ) (he : exec σ as = .to σ') : Reachable σ' := by
  obtain ⟨name, σ₀, bs, h0, h1⟩ := h
  exact ⟨name, σ₀, bs ++ as, h0, exec_append h1 he⟩

theorem Reachable.step {σ σ' : St} {a : Act} (h : Reachable σ) (he : step σ a = .to σ') : Reachable σ' :=
  h.exec (as := [a]) (by simp [Action.exec, he])

theorem reachable_induct {P : St → Prop} (h0 : ∀ name b, Bus.initial name = some b →
    P ⟨b, [], [], [], [], .idle, none, [], [], [], []⟩)
    (hstep : ∀ σ a σ', Reachable σ → P σ → Action.step σ a = .to σ' → P σ') {σ : St} (h : Reachable σ) : P σ := by
  obtain ⟨name, σ₀, as, hi, he⟩ := h
  obtain ⟨b, hb, rfl⟩ := initial_bus hi
  have key : ∀ as τ, Reachable τ → P τ → ∀ τ', Action.exec τ as = .to τ' → P τ' := by
    intro as
    induction as with
    | nil => intro τ _ hp τ' he; cases he; exact hp
    | cons a as ih =>
      intro τ hr hp τ' he
      obtain ⟨ρ, h1, h2⟩ := exec_cons he
      exact ih ρ (hr.step h1) (hstep τ a ρ hr hp h1) τ' h2
  exact key as _ ⟨name, _, [], hi, rfl⟩ (h0 name b hb) _ he

end LP.Action
