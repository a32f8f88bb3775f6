import Verif.Lemma.ActionPlay
import Verif.Lemma.Observe
/-!
# Further facts about actions
-/
namespace LP.Action
open LP.Bus (Delivery)

/-! ## A step that invokes a callback -/

theorem deliver_step {σ σ' : St} {a : Act} {d : Delivery} (hs : step σ a = .to σ') (hd : Delivers σ σ' d) :
    ∃ c b, a = .run c ∧ blocked σ = false ∧ Bus.rstep c σ.bus = some b ∧ inCb σ.bus.phase = false ∧ inCb b.phase = true ∧
      (σ.bus.w.sub d.sub).cb = some d.cb ∧ σ' = dispatch { σ with bus := b } d := by
  unfold Delivers at hd
  have hne : ∀ l : List Delivery, l ≠ l ++ [d] := fun l h => by
    have := congrArg List.length h; simp at this
  have key : σ'.bus.log = σ.bus.log → False := by
    intro h; rw [h] at hd; exact hne _ hd
  cases step_eff hs with
  | client a b h1 h2 => exact (key (client_cases (client_not_run h1) h2).2.2.1).elim
  | endCb c b h1 h2 h3 h4 h5 h6 => exact (key ((congrArg Bus.St.log (endCb_same σ b c).1).trans h5)).elim
  | quiet c b h1 h2 h3 h4 h5 => exact (key h5).elim
  | deliver c b d' h1 h2 h3 h4 h5 h6 =>
    rw [(dispatch_same { σ with bus := b } d').1] at hd
    simp only at hd
    rw [h5] at hd
    have := List.append_cancel_left hd
    cases this
    exact ⟨c, b, rfl, h1, h2, h3, h4, h6, rfl⟩
  | test c id n t f h1 h2 h3 => exact (key rfl).elim
  | store c id n t f h1 h2 h3 => exact (key rfl).elim
  | flag c id n t f h1 h2 h3 => exact (key rfl).elim
  | wake c id n t f h1 h2 h3 => exact (key rfl).elim
  | consumer q s topic b h1 h2 h3 h4 h5 h6 h7 h8 h9 h10 h11 => exact (key (setCb_log h11)).elim
  | provider s q topic cb b h1 h2 h3 h4 h5 h6 h7 h8 h9 h10 h11 => exact (key (setCb_log h11)).elim
  | reset p => exact (key rfl).elim
  | request c id k t x hx => exact (key rfl).elim
  | begin c id t onBus x hx ho => exact (key rfl).elim
  | send i p x b h1 h2 h3 => exact (key (pubPublish_log h3).1).elim
  | respond p id t x b h1 h2 => exact (key (pubPublish_log h2).1).elim
  | look n f h1 h2 h3 => exact (key rfl).elim
  | leave n f h1 h2 h3 => exact (key rfl).elim
  | sleep n f h1 h2 => exact (key rfl).elim
  | spurious n f h1 h2 => exact (key rfl).elim
  | timeout n f h1 h2 => exact (key rfl).elim

/-! ## A callback about to throw -/

theorem inCb_visit {p : Bus.Phase} (h : inCb p = true) : ∃ m st batch, p = .visit m st true batch := by
  cases p with
  | visit m st cb batch => cases cb with
    | true => exact ⟨m, st, batch, rfl⟩
    | false => simp [inCb] at h
  | _ => simp [inCb] at h

theorem along_mem {P : Act → Prop} {as : List Act} (h : ∀ a ∈ as, P a) {σ : St} : Along (fun _ a => P a) σ as := by
  induction as generalizing σ with
  | nil => trivial
  | cons a as ih => exact ⟨h a List.mem_cons_self, fun σ' _ => ih (fun b hb => h b (List.mem_cons_of_mem _ hb))⟩

/-- Other threads do not move the bus thread while it is in a callback. -/
theorem client_phase {a : Bus.Act} {b b' : Bus.St} (hr : ∀ c, a ≠ .run c) (hi : inCb b.phase = true) (h : Bus.step b a = some b') :
    b'.phase = b.phase := by
  obtain ⟨m, st, batch, hp⟩ := inCb_visit hi
  cases a with
  | run c => exact absurd rfl (hr c)
  | start => simp [Bus.step, hp] at h
  | push i =>
    simp only [Bus.step] at h
    split at h <;> cases h
    rfl
  | notify =>
    simp only [Bus.step, hp] at h
    split at h <;> cases h
    exact hp.symm
  | _ =>
    simp only [Bus.step] at h
    split at h <;> cases h
    rfl

theorem run_not_undefined (σ : St) (c : Bus.Choice) : step σ (.run c) ≠ .undefined := by
  simp only [step, run]
  repeat' split
  all_goals simp

theorem doomed_only_throws {σ : St} {e : Exn} (hc : σ.cur = .doomed e) (hi : inCb σ.bus.phase = true) {ch : Bus.Choice}
    (hch : ch ≠ .throwing) : step σ (.run ch) = .cannot := by
  cases hs : step σ (.run ch) with
  | cannot => rfl
  | undefined => exact absurd hs (run_not_undefined σ ch)
  | to σ' =>
    cases step_eff hs with
    | endCb c b h1 h2 h3 h4 h5 h6 => rw [hc] at h6; cases ch <;> simp [mayEnd] at h6 hch
    | quiet c b h1 h2 h3 => rw [hi] at h3; cases h3
    | deliver c b d h1 h2 h3 => rw [hi] at h3; cases h3

theorem doomed_step {σ σ' : St} {e : Exn} {a : Act} (hc : σ.cur = .doomed e) (hi : inCb σ.bus.phase = true) (ha : a ≠ .run .throwing)
    (hs : step σ a = .to σ') : σ'.cur = .doomed e ∧ σ'.bus.log = σ.bus.log ∧ σ'.bus.phase = σ.bus.phase := by
  have hrun : ∀ ch, a ≠ .run ch := by
    rintro ch rfl
    rw [doomed_only_throws hc hi (fun h => ha (by rw [h]))] at hs; cases hs
  have hlam : ∀ {c : Nat} {id : Str} {cb : Cb} {t : Tree} {st : Stage}, σ.cur ≠ .answering c id cb t st := by
    intro c id cb t st h; rw [hc] at h; cases h
  cases step_eff hs with
  | client a b h1 h2 =>
    refine ⟨hc, (client_cases (client_not_run h1) h2).2.2.1, client_phase (client_not_run h1) hi h2⟩
  | endCb c b h1 h2 h3 h4 h5 h6 => exact absurd rfl (hrun c)
  | quiet c b h1 h2 h3 h4 h5 => exact absurd rfl (hrun c)
  | deliver c b d h1 h2 h3 h4 h5 h6 => exact absurd rfl (hrun c)
  | test c id n t f h1 h2 h3 => exact absurd h1 hlam
  | store c id n t f h1 h2 h3 => exact absurd h1 hlam
  | flag c id n t f h1 h2 h3 => exact absurd h1 hlam
  | wake c id n t f h1 h2 h3 => exact absurd h1 hlam
  | consumer q s topic b h1 h2 h3 h4 h5 h6 h7 h8 h9 h10 h11 =>
    exact ⟨hc, setCb_log h11, client_phase (fun _ => by simp) hi h11⟩
  | provider s q topic cb b h1 h2 h3 h4 h5 h6 h7 h8 h9 h10 h11 =>
    exact ⟨hc, setCb_log h11, client_phase (fun _ => by simp) hi h11⟩
  | reset p => exact ⟨hc, rfl, rfl⟩
  | request c id k t x hx => exact ⟨hc, rfl, rfl⟩
  | begin c id t onBus x hx ho => exact ⟨hc, rfl, rfl⟩
  | send i p x b h1 h2 h3 => exact ⟨hc, pubPublish_log h3⟩
  | respond p id t x b h1 h2 => exact ⟨hc, pubPublish_log h2⟩
  | look n f h1 h2 h3 => exact ⟨hc, rfl, rfl⟩
  | leave n f h1 h2 h3 => exact ⟨hc, rfl, rfl⟩
  | sleep n f h1 h2 => exact ⟨hc, rfl, rfl⟩
  | spurious n f h1 h2 => exact ⟨hc, rfl, rfl⟩
  | timeout n f h1 h2 => exact ⟨hc, rfl, rfl⟩

/-! ## Started requests are registered -/

/-- The registration of a started request. -/
def PendAsked (σ : St) : Prop := ∀ p ∈ σ.pending, ∃ a ∈ σ.asked, a.cons = p.cons ∧ a.id = p.id ∧ a.request = p.request

theorem PendAsked.keep {σ σ' : St} (h : PendAsked σ) (h1 : σ'.pending ⊆ σ.pending) (h2 : σ.asked ⊆ σ'.asked) : PendAsked σ' := by
  intro p hp
  obtain ⟨a, ha, e⟩ := h p (h1 hp)
  exact ⟨a, h2 ha, e⟩

theorem pendAsked_step {σ σ' : St} {a : Act} (h : PendAsked σ) (hs : step σ a = .to σ') : PendAsked σ' := by
  cases step_eff hs with
  | client a b h1 h2 => exact h.keep (fun _ h => h) (fun _ h => h)
  | endCb c b h1 h2 h3 h4 h5 h6 =>
    obtain ⟨e1, e2, e3, e4, e5, e6, e7, e8, e9⟩ := endCb_same σ b c
    exact h.keep (by rw [e3]; exact fun _ h => h) (by rw [e8]; exact fun _ h => h)
  | quiet c b h1 h2 h3 h4 h5 => exact h.keep (fun _ h => h) (fun _ h => h)
  | deliver c b d h1 h2 h3 h4 h5 h6 =>
    obtain ⟨e1, e2, e3, e4, e5, e6, e7, e8, e9⟩ := dispatch_same { σ with bus := b } d
    exact h.keep (by rw [e4]; exact fun _ h => h) (by rw [e7]; exact fun _ h => h)
  | request c id k t x hx =>
    intro p hp
    rcases List.mem_append.1 hp with hp | hp
    · obtain ⟨a, ha, e⟩ := h p hp; exact ⟨a, List.mem_append_left _ ha, e⟩
    · rw [List.mem_singleton] at hp; subst hp
      exact ⟨_, List.mem_append_right _ (List.mem_singleton.2 rfl), rfl, rfl, rfl⟩
  | begin c id t onBus x hx ho =>
    intro p hp
    rcases List.mem_append.1 hp with hp | hp
    · obtain ⟨a, ha, e⟩ := h p hp; exact ⟨a, List.mem_append_left _ ha, e⟩
    · rw [List.mem_singleton] at hp; subst hp
      exact ⟨_, List.mem_append_right _ (List.mem_singleton.2 rfl), rfl, rfl, rfl⟩
  | send i p x b h1 h2 h3 => exact h.keep (List.eraseIdx_subset) (fun _ h => h)
  | _ => exact h.keep (fun _ h => h) (fun _ h => h)

theorem Reachable.pendAsked {σ : St} (h : Reachable σ) : PendAsked σ := by
  refine reachable_induct (P := PendAsked) ?_ (fun σ a σ' _ hp hs => pendAsked_step hp hs) h
  intro name b hb p hp
  simp at hp

/-! ## Envelopes -/

theorem envelope_request (id : Str) (t : Tree) :
    envelope (bs "request") id t = .dict [(bs "invocationId", .value (.str id)), (bs "request", t)] := rfl

theorem envelope_response (id : Str) (t : Tree) :
    envelope (bs "response") id t = .dict [(bs "invocationId", .value (.str id)), (bs "response", t)] := rfl

theorem idOf_request (id : Str) (t : Tree) : idOf (envelope (bs "request") id t) = some id := rfl
theorem idOf_response (id : Str) (t : Tree) : idOf (envelope (bs "response") id t) = some id := rfl
theorem responseOf_response (id : Str) (t : Tree) : responseOf (envelope (bs "response") id t) = t := rfl

/-- No document is the same as one of its own entries. -/
theorem not_same_entry (k : Str) : ∀ (n : Nat) (u : Tree), u.depth ≤ n → ∀ ds, Dict.find k ds = some u → ¬Same (.dict ds) u := by
  intro n
  induction n with
  | zero => intro u hu; have := Tree.depth_pos u; omega
  | succ n ih =>
    intro u hu ds hf hs
    cases hs with
    | dict h1 h2 =>
      rename_i es
      have := h1 k
      rw [hf] at this
      cases hv : Dict.find k es with
      | none => rw [hv] at this; cases this
      | some v =>
        have hlt : v.depth ≤ Tree.depth.depthD es := Tree.depth_mem_dict (e := (k, v)) (Dict.find_some_mem hv)
        simp only [Tree.depth] at hu
        exact ih v (by omega) es hv (h2 k _ _ hf hv)

end LP.Action
