import Verif.Spec.Remote
import Verif.Lemma.ActionTalk
import Verif.Lemma.Wire
/-!
# Two hosts joined by links: lemmas
-/
namespace LP.Remote
open LP.Action (Next Bears requestTopic responseTopic idOf responseOf envelope talk Pending Cons Prov Ev Source)
open LP.Bus (BMsg Delivery)

/-! ## Documents -/

theorem find_map (k : Str) (f : Tree → Tree) : ∀ ds : List (Str × Tree),
    Dict.find k (ds.map fun e => (e.1, f e.2)) = (Dict.find k ds).map f := by
  intro ds
  induction ds with
  | nil => rfl
  | cons e ds ih =>
    obtain ⟨k', t⟩ := e
    simp only [List.map_cons, Dict.find]
    split
    · rfl
    · exact ih

theorem subAt_wire (k : Str) (t : Tree) : Tree.subAt [.key k] t.wire = (Tree.subAt [.key k] t).wire := by
  cases t with
  | empty => rfl
  | value v => cases v <;> rfl
  | list ts => cases ts <;> rfl
  | dict ds =>
    by_cases h : ds = []
    · subst h; rfl
    · rw [wire_dict h]
      simp only [Tree.subAt, Tree.asDict, find_map]
      cases Dict.find k ds <;> rfl

theorem idOf_wire (t : Tree) : idOf t.wire = idOf t := by
  unfold idOf
  rw [subAt_wire]
  cases Tree.subAt [.key (bs "invocationId")] t with
  | empty => rfl
  | value v => cases v <;> rfl
  | list ts => cases ts <;> rfl
  | dict ds => rcases ds with _ | ⟨⟨k, t⟩, ds⟩ <;> rfl

theorem responseOf_wire (t : Tree) : responseOf t.wire = (responseOf t).wire := subAt_wire _ _

theorem envelope_wire (id : Str) (t : Tree) : (envelope (bs "request") id t).wire = envelope (bs "request") id t.wire := rfl

/-! ## Senders -/

theorem echo_iff {e : End} {m : BMsg} : Net.echo e.name m = true ↔ Through e m.sender := by
  unfold Net.echo Msg.wasSentBySender Through
  simp only [beq_iff_eq]
  constructor
  · intro h
    exact ⟨m.sender.drop (e.name.length + 1), by rw [← h, List.take_append_drop]⟩
  · rintro ⟨r, h⟩
    rw [h]
    have : (e.name ++ bs "/").length = e.name.length + 1 := by simp [bs]
    rw [← this, List.take_left]

theorem echo_arrive (ends : Bool → End) (s : Bool) (m : BMsg) : Net.echo (ends s).name (Net.arrive (hop ends s) m) = true :=
  echo_iff.2 ⟨m.sender, rfl⟩

/-! ## One host -/

theorem pub_said {b b' : Bus.St} {q : Nat} {d : Tree} (h : Bus.step b (.pubPublish q d) = some b') (h1 : (b.w.pub q).active = true)
    (h2 : Action.Attached q b) : (⟨(b.w.bus (b.w.pub q).bus).name, (b.w.pub q).topic, d⟩ : BMsg) ∈ talk b' := by
  simp only [Bus.step] at h
  split at h <;> cases h
  unfold Action.Attached at h2
  simp [talk, Bus.pubPublish, Bus.publishTopic, Bus.publishMsg, h1, h2]

theorem link_said {τ τ' : Action.St} {b : Nat} {m : BMsg} (h : Action.step τ (.bus (.publish b m)) = .to τ')
    (ha : (τ.bus.w.bus b).attached = true) : m ∈ talk τ'.bus := by
  cases Action.step_eff h with
  | client a b' h1 h2 =>
    simp only [Bus.step] at h2
    split at h2 <;> cases h2
    simp [talk, Bus.publishMsg, ha]

theorem link_rest {τ τ' : Action.St} {b : Nat} {m : BMsg} (h : Action.step τ (.bus (.publish b m)) = .to τ') :
    τ'.pending = τ.pending ∧ τ'.provs = τ.provs ∧ τ'.replied = τ.replied ∧ τ'.evs = τ.evs ∧ τ'.bus.log = τ.bus.log ∧
    τ'.cons = τ.cons := by
  cases Action.step_eff h with
  | client a b' h1 h2 =>
    simp only [Bus.step] at h2
    split at h2 <;> cases h2
    exact ⟨rfl, rfl, rfl, rfl, rfl, rfl⟩

/-- New calls waiting to publish come from new requests. -/
theorem pend_step {τ τ' : Action.St} {a : Action.Act} (h : Action.step τ a = .to τ') :
    ∀ q ∈ τ'.pending, q ∈ τ.pending ∨ (∃ c k t, a = .request c q.id k t) ∨ ∃ c t o, a = .begin c q.id t o := by
  intro q hq
  cases Action.step_eff h with
  | endCb c b h1 h2 h3 h4 h5 h6 => rw [(Action.endCb_more τ b c).1] at hq; exact .inl hq
  | deliver ch b d h1 h2 h3 h4 h5 h6 =>
    rw [(Action.dispatch_same { τ with bus := b } d).2.2.2.1] at hq; exact .inl hq
  | request c' id' k' t' x' hx' =>
    rcases List.mem_append.1 hq with hq | hq
    · exact .inl hq
    · simp only [List.mem_singleton] at hq; subst hq; exact .inr (.inl ⟨c', k', t', rfl⟩)
  | begin c' id' t' onBus x' hx' _ =>
    rcases List.mem_append.1 hq with hq | hq
    · exact .inl hq
    · simp only [List.mem_singleton] at hq; subst hq; exact .inr (.inr ⟨c', t', onBus, rfl⟩)
  | send i q x' b h1 h2 h3 => exact .inl (List.mem_of_mem_eraseIdx hq)
  | _ => exact .inl hq

/-- A call waiting to publish keeps waiting or publishes. -/
theorem sent_step {τ τ' : Action.St} {a : Action.Act} (hr : Action.Reachable τ) (h : Action.step τ a = .to τ') {e : End} {q : Pending}
    {x : Cons} (hx : τ.cons[q.cons]? = some x) (hh : Heard e x.pub τ) (hq : q ∈ τ.pending) :
    q ∈ τ'.pending ∨ ∃ m ∈ talk τ'.bus, m.topic = requestTopic x.topic ∧ m.dg = envelope (bs "request") q.id q.request ∧
      Net.echo e.name m = false := by
  cases Action.step_eff h with
  | endCb c b h1 h2 h3 h4 h5 h6 => rw [(Action.endCb_more τ b c).1]; exact .inl hq
  | deliver ch b d h1 h2 h3 h4 h5 h6 =>
    rw [(Action.dispatch_same { τ with bus := b } d).2.2.2.1]; exact .inl hq
  | request c' id' k' t' x' hx' => exact .inl (List.mem_append_left _ hq)
  | begin c' id' t' onBus x' hx' _ => exact .inl (List.mem_append_left _ hq)
  | send i q' x' b h1 h2 h3 =>
    obtain ⟨j, hj, ej⟩ := List.mem_iff_getElem.1 hq
    by_cases hij : j = i
    · subst hij
      rw [List.getElem?_eq_getElem hj, ej] at h1
      cases h1
      rw [hx] at h2; cases h2
      have hk := hr.own.cons _ _ hx
      refine .inr ⟨_, pub_said h3 hk.active hh.1, hk.pubTopic, rfl, ?_⟩
      rw [Bool.eq_false_iff]
      exact fun he => hh.2 (echo_iff.1 he)
    · exact .inl (List.mem_eraseIdx_iff_getElem.2 ⟨j, hj, hij, ej⟩)
  | _ => exact .inl hq

theorem told_step {τ τ' : Action.St} {a : Action.Act} (hr : Action.Reachable τ) (h : Action.step τ a = .to τ') {e : End} {p : Nat}
    {id : Str} {u : Tree} {y : Prov} (hy : τ.provs[p]? = some y) (hh : Heard e y.pub τ) (hu : (p, id, u) ∈ τ'.replied) :
    (p, id, u) ∈ τ.replied ∨ ∃ m ∈ talk τ'.bus, m.topic = responseTopic y.topic ∧ m.dg = envelope (bs "response") id u ∧
      Net.echo e.name m = false := by
  cases Action.step_eff h with
  | endCb c b h1 h2 h3 h4 h5 h6 => rw [(Action.endCb_more τ b c).2.2.1] at hu; exact .inl hu
  | deliver ch b d h1 h2 h3 h4 h5 h6 =>
    rw [(Action.dispatch_same { τ with bus := b } d).2.2.2.2.2.2.2.1] at hu; exact .inl hu
  | respond p' id' u' y' b h1 h2 =>
    rcases List.mem_append.1 hu with hu | hu
    · exact .inl hu
    · simp only [List.mem_singleton, Prod.mk.injEq] at hu
      obtain ⟨rfl, rfl, rfl⟩ := hu
      rw [hy] at h1; cases h1
      have hk := hr.own.provs _ _ hy
      refine .inr ⟨_, pub_said h2 hk.active hh.1, hk.pubTopic, rfl, ?_⟩
      rw [Bool.eq_false_iff]
      exact fun he => hh.2 (echo_iff.1 he)
  | _ => exact .inl hu

/-- Whatever has reached the provider has been shown to it. -/
def Shown (p : Nat) (id : Str) (τ : Action.St) : Prop := ∀ y, τ.provs[p]? = some y → y.cb ≠ none ∧
    ∀ d ∈ τ.bus.log, d.sub = y.sub → idOf d.msg.dg = some id → ∃ k, Ev.requested p k id d.msg.dg ∈ τ.evs

theorem Shown.keep {p : Nat} {id : Str} {τ τ' : Action.St} (h : Shown p id τ) (h2 : ∀ y, τ'.provs[p]? = some y → τ.provs[p]? = some y)
    (h3 : τ'.bus.log = τ.bus.log) (h4 : ∀ e ∈ τ.evs, e ∈ τ'.evs) : Shown p id τ' := by
  intro y hy
  obtain ⟨e1, e2⟩ := h y (h2 y hy)
  refine ⟨e1, fun d hd d1 d2 => ?_⟩
  rw [h3] at hd
  obtain ⟨k, hk⟩ := e2 d hd d1 d2
  exact ⟨k, h4 _ hk⟩

theorem shown_step {p : Nat} {id : Str} {τ τ' : Action.St} {a : Action.Act} (hr : Action.Reachable τ) (hsh : Shown p id τ)
    {y : Prov} (hy : τ.provs[p]? = some y) (ha : ∀ p', a = .resetProvider p' → p' ≠ p) (h : Action.step τ a = .to τ') : Shown p id τ' := by
  have m := Action.mono_step h
  cases Action.step_eff h with
  | client a b h1 h2 => exact hsh.keep (fun y h => h) (Action.client_cases (Action.client_not_run h1) h2).2.2.1 (fun e h => h)
  | endCb c b h1 h2 h3 h4 h5 h6 =>
    obtain ⟨e1, e2, e3, e4⟩ := Action.endCb_more τ b c
    exact hsh.keep (fun y h => e4 ▸ h) ((congrArg Bus.St.log (Action.endCb_same τ b c).1).trans h5) (fun e h => e2 ▸ h)
  | quiet c b h1 h2 h3 h4 h5 => exact hsh.keep (fun y h => h) h5 (fun e h => h)
  | deliver ch b d h1 h2 h3 h4 h5 h6 =>
    obtain ⟨d1, -, d3, d4, -, -, -, d8, -⟩ := Action.dispatch_same { τ with bus := b } d
    intro y' hy'
    rw [d3] at hy'
    obtain ⟨e1, e2⟩ := hsh y' hy'
    refine ⟨e1, fun e he f1 f2 => ?_⟩
    rw [d1] at he
    simp only [h5] at he
    rcases List.mem_append.1 he with he | he
    · obtain ⟨k, hk⟩ := e2 e he f1 f2
      exact ⟨k, m.evs.subset hk⟩
    · simp only [List.mem_singleton] at he
      subst he
      have hf : Action.fnOf e.cb = .provider p := (hr.own.provider h6).2 ⟨y', hy', f1⟩
      obtain ⟨k, hk⟩ := Option.ne_none_iff_exists'.1 e1
      refine ⟨k, ?_⟩
      have hy'' : ({ τ with bus := b } : Action.St).provs[p]? = some y' := hy'
      simp only [Action.dispatch, hf, f2, hy', hk]
      simp
  | consumer q s tp b _ _ _ _ _ _ _ _ _ _ hcb => exact hsh.keep (fun y h => h) (Action.setCb_log hcb) (fun e h => h)
  | provider s q tp cb b _ _ _ _ _ _ _ _ _ _ hcb =>
    refine hsh.keep (fun y' h => ?_) (Action.setCb_log hcb) (fun e h => h)
    have := Action.getElem?_append_old (m := [⟨tp, s, q, cb⟩]) hy
    simp only at h
    rw [this] at h; cases h; exact hy
  | reset p' =>
    refine hsh.keep (fun y' h => ?_) rfl (fun e h => h)
    simp only [List.getElem?_modify, if_neg (ha p' rfl)] at h
    simpa using h
  | send i q x' b h1 h2 h3 => exact hsh.keep (fun y h => h) (Action.pubPublish_log h3).1 (fun e h => h)
  | respond p' id' u y' b h1 h2 => exact hsh.keep (fun y h => h) (Action.pubPublish_log h2).1 (fun e h => h)
  | _ => exact hsh.keep (fun y h => h) rfl (fun e h => h)

/-! ## Both -/

theorem other {r s : Bool} (h : r ≠ s) : r = !s := by cases r <;> cases s <;> simp_all

theorem step_act {ends : Bool → End} {σ σ' : St} {s : Bool} {a : Action.Act} (h : step ends σ (.act s a) = .to σ') :
    Action.step (σ.host s) a = .to (σ'.host s) ∧ σ'.host (!s) = σ.host (!s) ∧ σ'.way s = σ.way s ∧
    σ'.way (!s) = σ.way (!s) ++ sends (ends s) (σ.host s) (σ'.host s) := by
  simp only [step] at h
  split at h <;> cases h
  rename_i τ hτ
  cases s <;> simp [put, hτ]

theorem step_receive {ends : Bool → End} {σ σ' : St} {s : Bool} {i : Nat} (h : step ends σ (.receive s i) = .to σ') :
    ∃ m, (σ.way s)[i]? = some m ∧
      Action.step (σ.host s) (.bus (.publish (ends s).bus (Net.arrive (hop ends s) m))) = .to (σ'.host s) ∧
      σ'.host (!s) = σ.host (!s) ∧ σ'.way (!s) = σ.way (!s) ∧ σ'.way s = (σ.way s).eraseIdx i := by
  simp only [step] at h
  split at h <;> try cases h
  rename_i m hm
  split at h <;> cases h
  rename_i τ hτ
  refine ⟨m, hm, ?_⟩
  cases s <;> simp [put, hτ]

theorem exec_cons {ends : Bool → End} {σ σ' : St} {a : Act} {as : List Act} (h : exec ends σ (a :: as) = .to σ') :
    ∃ τ, step ends σ a = .to τ ∧ exec ends τ as = .to σ' := by
  simp only [exec] at h
  split at h <;> try cases h
  exact ⟨_, by assumption, h⟩

/-- Each host sees an execution of its own. -/
theorem project {ends : Bool → End} {σ σ' : St} {as : List Act} (h : exec ends σ as = .to σ') (r : Bool) :
    ∃ l, Action.exec (σ.host r) l = .to (σ'.host r) ∧ (.run .throwing ∈ l → .act r (.run .throwing) ∈ as) ∧
      ∀ P : Action.St → Prop, Throughout ends (fun τ => P (τ.host r)) σ as → Action.Throughout P (σ.host r) l := by
  induction as generalizing σ with
  | nil => cases h; exact ⟨[], rfl, by simp, fun P h => h⟩
  | cons a as ih =>
    obtain ⟨τ, h1, h2⟩ := exec_cons h
    obtain ⟨l, f1, f2, f3⟩ := ih h2
    have same : τ.host r = σ.host r → ∃ l, Action.exec (σ.host r) l = .to (σ'.host r) ∧
        (.run .throwing ∈ l → .act r (.run .throwing) ∈ a :: as) ∧
        ∀ P : Action.St → Prop, Throughout ends (fun τ => P (τ.host r)) σ (a :: as) → Action.Throughout P (σ.host r) l :=
      fun e => ⟨l, e ▸ f1, fun h => List.mem_cons_of_mem _ (f2 h), fun P hP => e ▸ f3 P (hP.2 _ h1)⟩
    have more : ∀ x, Action.step (σ.host r) x = .to (τ.host r) → (x = .run .throwing → a = .act r (.run .throwing)) →
        ∃ l, Action.exec (σ.host r) l = .to (σ'.host r) ∧ (.run .throwing ∈ l → .act r (.run .throwing) ∈ a :: as) ∧
        ∀ P : Action.St → Prop, Throughout ends (fun τ => P (τ.host r)) σ (a :: as) → Action.Throughout P (σ.host r) l := by
      intro x hx hthrow
      refine ⟨x :: l, by simp only [Action.exec, hx]; exact f1, fun h => ?_, fun P hP => ⟨hP.1, fun ρ hρ => ?_⟩⟩
      · rcases List.mem_cons.1 h with h | h
        · rw [hthrow h.symm]; exact List.mem_cons_self
        · exact List.mem_cons_of_mem _ (f2 h)
      · rw [hx] at hρ; cases hρ; exact f3 P (hP.2 _ h1)
    cases a with
    | act s x =>
      obtain ⟨g1, g2, -⟩ := step_act h1
      by_cases e : r = s
      · subst e; exact more x g1 (fun e => by rw [e])
      · have : r = !s := other e
        subst this; exact same g2
    | receive s i =>
      obtain ⟨m, -, g1, g2, -⟩ := step_receive h1
      by_cases e : r = s
      · subst e; exact more _ g1 (fun e => by cases e)
      · have : r = !s := other e
        subst this; exact same g2

theorem throughout_imp {ends : Bool → End} {P Q : St → Prop} (hPQ : ∀ τ, P τ → Q τ) {σ : St} {as : List Act}
    (h : Throughout ends P σ as) : Throughout ends Q σ as := by
  induction as generalizing σ with
  | nil => exact hPQ _ h
  | cons a as ih => exact ⟨hPQ _ h.1, fun τ hτ => ih (h.2 τ hτ)⟩

theorem mem_sends {e : End} {σ σ' : Action.St} {m : BMsg} (h : m ∈ sends e σ σ') :
    ∃ d ∈ σ'.bus.log, d.sub = e.sub ∧ d.msg = m ∧ Net.echo e.name m = false := by
  simp only [sends, List.mem_map, List.mem_filter, Bool.and_eq_true, beq_iff_eq, Bool.not_eq_true'] at h
  obtain ⟨d, ⟨h1, h2, h3⟩, rfl⟩ := h
  exact ⟨d, List.mem_of_mem_drop h1, h2, rfl, h3⟩

theorem sends_mem {e : End} {σ σ' : Action.St} (hp : σ.bus.log <+: σ'.bus.log) {d : Delivery} (h : d ∈ σ'.bus.log) (h1 : d.sub = e.sub)
    (h2 : Net.echo e.name d.msg = false) : d ∈ σ.bus.log ∨ d.msg ∈ sends e σ σ' := by
  obtain ⟨l, hl⟩ := hp
  rw [← hl] at h
  rcases List.mem_append.1 h with h | h
  · exact .inl h
  · right
    simp only [sends, List.mem_map, List.mem_filter, Bool.and_eq_true, beq_iff_eq, Bool.not_eq_true']
    exact ⟨d, ⟨by rw [← hl, List.drop_left]; exact h, h1, h2⟩, rfl⟩

/-- What was delivered was published. -/
theorem said_of_log {τ : Action.St} (h : Action.Reachable τ) {d : Delivery} (hd : d ∈ τ.bus.log) : d.msg ∈ talk τ.bus :=
  List.mem_append_right _ (List.mem_of_getElem? (Bus.C30_no_spurious_delivery _ h.bus d hd).2.1)

theorem reach_step {ends : Bool → End} {σ σ' : St} {a : Act} (h : ∀ r, Action.Reachable (σ.host r)) (hs : step ends σ a = .to σ') :
    ∀ r, Action.Reachable (σ'.host r) := by
  intro r
  cases a with
  | act s x =>
    obtain ⟨g1, g2, -⟩ := step_act hs
    by_cases e : r = s
    · subst e; exact (h r).step g1
    · have : r = !s := other e
      subst this; rw [g2]; exact h _
  | receive s i =>
    obtain ⟨m, -, g1, g2, -⟩ := step_receive hs
    by_cases e : r = s
    · subst e; exact (h r).step g1
    · have : r = !s := other e
      subst this; rw [g2]; exact h _

end LP.Remote
