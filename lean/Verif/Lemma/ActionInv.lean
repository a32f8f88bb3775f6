import Verif.Lemma.ActionEff
/-!
# Invariants of the action layer: who owns which subscriber
-/
namespace LP.Action
open LP.Bus (Delivery)

/-- A consumer and its private subscriber and publisher belong together. -/
structure ConsOk (w : Bus.World) (c : Nat) (x : Cons) : Prop where
  sub : x.sub < w.ns
  cb : (w.sub x.sub).cb = some (3 * c + 1)
  subTopic : (w.sub x.sub).topic = responseTopic x.topic
  pub : x.pub < w.np
  pubTopic : (w.pub x.pub).topic = requestTopic x.topic
  active : (w.pub x.pub).active = true
  sorted : x.opened.Sorted

/-- What holds of every provider. -/
structure ProvOk (w : Bus.World) (p : Nat) (x : Prov) : Prop where
  sub : x.sub < w.ns
  cb : (w.sub x.sub).cb = some (3 * p + 2)
  subTopic : (w.sub x.sub).topic = requestTopic x.topic
  pub : x.pub < w.np
  pubTopic : (w.pub x.pub).topic = responseTopic x.topic
  active : (w.pub x.pub).active = true

/-- The library's lambdas are on the private subscribers only. -/
structure Own (σ : St) : Prop where
  cons : ∀ c x, σ.cons[c]? = some x → ConsOk σ.bus.w c x
  provs : ∀ p x, σ.provs[p]? = some x → ProvOk σ.bus.w p x
  backC : ∀ s k, (σ.bus.w.sub s).cb = some k → k % 3 = 1 → ∃ x, σ.cons[k / 3]? = some x ∧ x.sub = s
  backP : ∀ s k, (σ.bus.w.sub s).cb = some k → k % 3 = 2 → ∃ x, σ.provs[k / 3]? = some x ∧ x.sub = s

theorem ownedSub_cons {σ : St} {c : Nat} {x : Cons} (h : σ.cons[c]? = some x) : ownedSub σ x.sub = true := by
  simp only [ownedSub, Bool.or_eq_true, List.any_eq_true]
  exact .inl ⟨x, List.mem_of_getElem? h, by simp⟩

theorem ownedSub_provs {σ : St} {p : Nat} {x : Prov} (h : σ.provs[p]? = some x) : ownedSub σ x.sub = true := by
  simp only [ownedSub, Bool.or_eq_true, List.any_eq_true]
  exact .inr ⟨x, List.mem_of_getElem? h, by simp⟩

theorem ownedPub_cons {σ : St} {c : Nat} {x : Cons} (h : σ.cons[c]? = some x) : ownedPub σ x.pub = true := by
  simp only [ownedPub, Bool.or_eq_true, List.any_eq_true]
  exact .inl ⟨x, List.mem_of_getElem? h, by simp⟩

theorem ownedPub_provs {σ : St} {p : Nat} {x : Prov} (h : σ.provs[p]? = some x) : ownedPub σ x.pub = true := by
  simp only [ownedPub, Bool.or_eq_true, List.any_eq_true]
  exact .inr ⟨x, List.mem_of_getElem? h, by simp⟩

/-- The same subscribers and publishers, the same lists up to the open requests and provider callbacks. -/
theorem Own.same {σ σ' : St} (h : Own σ) (h1 : σ'.bus.w.sub = σ.bus.w.sub) (h2 : σ'.bus.w.pub = σ.bus.w.pub)
    (h3 : σ'.bus.w.ns = σ.bus.w.ns) (h4 : σ'.bus.w.np = σ.bus.w.np)
    (hc : ∀ (c : Nat) (x' : Cons), σ'.cons[c]? = some x' → ∃ x : Cons, σ.cons[c]? = some x ∧ x'.topic = x.topic ∧ x'.sub = x.sub ∧ x'.pub = x.pub ∧ (x.opened.Sorted → x'.opened.Sorted))
    (hc' : ∀ (c : Nat) (x : Cons), σ.cons[c]? = some x → ∃ x' : Cons, σ'.cons[c]? = some x' ∧ x'.sub = x.sub)
    (hp : ∀ (c : Nat) (x' : Prov), σ'.provs[c]? = some x' → ∃ x : Prov, σ.provs[c]? = some x ∧ x'.topic = x.topic ∧ x'.sub = x.sub ∧ x'.pub = x.pub)
    (hp' : ∀ (c : Nat) (x : Prov), σ.provs[c]? = some x → ∃ x' : Prov, σ'.provs[c]? = some x' ∧ x'.sub = x.sub) : Own σ' := by
  refine ⟨?_, ?_, ?_, ?_⟩
  · intro c x' hx'
    obtain ⟨x, hx, e1, e2, e3, e4⟩ := hc c x' hx'
    have := h.cons c x hx
    exact ⟨by rw [h3, e2]; exact this.sub, by rw [h1, e2]; exact this.cb, by rw [h1, e2, e1]; exact this.subTopic,
      by rw [h4, e3]; exact this.pub, by rw [h2, e3, e1]; exact this.pubTopic, by rw [h2, e3]; exact this.active, e4 this.sorted⟩
  · intro c x' hx'
    obtain ⟨x, hx, e1, e2, e3⟩ := hp c x' hx'
    have := h.provs c x hx
    exact ⟨by rw [h3, e2]; exact this.sub, by rw [h1, e2]; exact this.cb, by rw [h1, e2, e1]; exact this.subTopic,
      by rw [h4, e3]; exact this.pub, by rw [h2, e3, e1]; exact this.pubTopic, by rw [h2, e3]; exact this.active⟩
  · intro s k hk hm
    rw [h1] at hk
    obtain ⟨x, hx, rfl⟩ := h.backC s k hk hm
    obtain ⟨x', hx', e⟩ := hc' _ x hx
    exact ⟨x', hx', e⟩
  · intro s k hk hm
    rw [h1] at hk
    obtain ⟨x, hx, rfl⟩ := h.backP s k hk hm
    obtain ⟨x', hx', e⟩ := hp' _ x hx
    exact ⟨x', hx', e⟩

theorem Own.sameBus {σ σ' : St} (h : Own σ) (h1 : σ'.bus.w.sub = σ.bus.w.sub) (h2 : σ'.bus.w.pub = σ.bus.w.pub)
    (h3 : σ'.bus.w.ns = σ.bus.w.ns) (h4 : σ'.bus.w.np = σ.bus.w.np) (hc : σ'.cons = σ.cons) (hp : σ'.provs = σ.provs) :
    Own σ' :=
  h.same h1 h2 h3 h4 (fun _ x h => ⟨x, hc ▸ h, rfl, rfl, rfl, id⟩) (fun _ x h => ⟨x, hc.symm ▸ h, rfl⟩)
    (fun _ x h => ⟨x, hp ▸ h, rfl, rfl, rfl⟩) (fun _ x h => ⟨x, hp.symm ▸ h, rfl⟩)

theorem dispatch_same (σ : St) (d : Delivery) : (dispatch σ d).bus = σ.bus ∧ (dispatch σ d).cons = σ.cons ∧
    (dispatch σ d).provs = σ.provs ∧ (dispatch σ d).pending = σ.pending ∧ (dispatch σ d).frames = σ.frames ∧
    (dispatch σ d).inside = σ.inside ∧ (dispatch σ d).asked = σ.asked ∧ (dispatch σ d).replied = σ.replied ∧
    (dispatch σ d).threw = σ.threw := by
  unfold dispatch
  repeat' split
  all_goals simp

theorem pubPublish_world {b b' : Bus.St} {q : Nat} {t : Tree} (h : Bus.step b (.pubPublish q t) = some b') : b'.w = b.w := by
  simp only [Bus.step] at h
  split at h <;> cases h
  rfl

theorem own_client {σ : St} (h : Own σ) {a : Bus.Act} {b : Bus.St} (hm : clientMay σ a = true)
    (hs : Bus.step σ.bus a = some b) : Own { σ with bus := b } := by
  have hr : ∀ c, a ≠ .run c := by rintro c rfl; simp [clientMay] at hm
  obtain ⟨g1, g2, g3, g4, g5, g6, g7⟩ := client_cases hr hs
  have keepSub : ∀ s, s < σ.bus.w.ns → ownedSub σ s = true → b.w.sub s = σ.bus.w.sub s := by
    intro s hs' ho
    refine g5 s hs' ?_ ?_
    · rintro cb rfl; simp [clientMay, ho] at hm
    · rintro i rfl; simp [clientMay, ho] at hm
  have keepPub : ∀ q, q < σ.bus.w.np → ownedPub σ q = true → b.w.pub q = σ.bus.w.pub q := by
    intro q hq ho
    refine g7 q hq ?_
    rintro i rfl; simp [clientMay, ho] at hm
  have noLib : ∀ s k, (b.w.sub s).cb = some k → (σ.bus.w.sub s).cb = some k ∨ k % 3 = 0 := by
    intro s k hk
    rcases g6 s k hk with h | rfl | ⟨i, t, rfl, _⟩
    · exact .inl h
    · simp [clientMay] at hm; exact .inr hm.2
    · simp [clientMay] at hm; exact .inr hm
  refine ⟨?_, ?_, ?_, ?_⟩
  · intro c x hx
    have := h.cons c x hx
    have e1 := keepSub _ this.sub (ownedSub_cons hx)
    have e2 := keepPub _ this.pub (ownedPub_cons hx)
    refine ⟨Nat.lt_of_lt_of_le this.sub g1, ?_, ?_, Nat.lt_of_lt_of_le this.pub g2, ?_, ?_, this.sorted⟩
    · simp only [e1]; exact this.cb
    · simp only [e1]; exact this.subTopic
    · simp only [e2]; exact this.pubTopic
    · simp only [e2]; exact this.active
  · intro c x hx
    have := h.provs c x hx
    have e1 := keepSub _ this.sub (ownedSub_provs hx)
    have e2 := keepPub _ this.pub (ownedPub_provs hx)
    refine ⟨Nat.lt_of_lt_of_le this.sub g1, ?_, ?_, Nat.lt_of_lt_of_le this.pub g2, ?_, ?_⟩
    · simp only [e1]; exact this.cb
    · simp only [e1]; exact this.subTopic
    · simp only [e2]; exact this.pubTopic
    · simp only [e2]; exact this.active
  · intro s k hk hm3
    rcases noLib s k hk with h' | h'
    · exact h.backC s k h' hm3
    · omega
  · intro s k hk hm3
    rcases noLib s k hk with h' | h'
    · exact h.backP s k h' hm3
    · omega

theorem setCb_world {b b' : Bus.St} {s : Nat} {cb : Option Nat} (h : Bus.step b (.setCb s cb) = some b') :
    b' = { b with w := Bus.setCallback s cb b.w } := by
  simp only [Bus.step] at h
  split at h <;> cases h
  rfl

theorem getElem?_append_one {α : Type} {l : List α} {y : α} {i : Nat} {x : α} (h : (l ++ [y])[i]? = some x) :
    l[i]? = some x ∨ i = l.length ∧ x = y := by
  rcases Nat.lt_trichotomy i l.length with hi | hi | hi
  · rw [List.getElem?_append_left hi] at h; exact .inl h
  · subst hi; simp at h; exact .inr ⟨rfl, h.symm⟩
  · rw [List.getElem?_eq_none (by simp; omega)] at h; cases h

theorem getElem?_append_old {α : Type} {l m : List α} {i : Nat} {x : α} (h : l[i]? = some x) : (l ++ m)[i]? = some x := by
  rw [List.getElem?_append_left (List.getElem?_eq_some_iff.1 h).1]; exact h

/-- Installing a library lambda on a subscriber nobody owns. -/
theorem own_install {σ : St} (h : Own σ) {s k : Nat} {cons : List Cons} {provs : List Prov}
    (ho : ownedSub σ s = false) (hc : ∀ (c : Nat) x, cons[c]? = some x → σ.cons[c]? = some x ∨ ConsOk (Bus.setCallback s (some k) σ.bus.w) c x)
    (hp : ∀ (c : Nat) x, provs[c]? = some x → σ.provs[c]? = some x ∨ ProvOk (Bus.setCallback s (some k) σ.bus.w) c x)
    (hc' : ∀ (c : Nat) x, σ.cons[c]? = some x → cons[c]? = some x) (hp' : ∀ (c : Nat) x, σ.provs[c]? = some x → provs[c]? = some x)
    (hk1 : k % 3 = 1 → ∃ x, cons[k / 3]? = some x ∧ x.sub = s) (hk2 : k % 3 = 2 → ∃ x, provs[k / 3]? = some x ∧ x.sub = s) :
    Own { σ with bus := { σ.bus with w := Bus.setCallback s (some k) σ.bus.w }, cons := cons, provs := provs } := by
  have keep : ∀ s', ownedSub σ s' = true → (Bus.setCallback s (some k) σ.bus.w).sub s' = σ.bus.w.sub s' := by
    intro s' h'
    simp only [Bus.setCallback, Bus.World.setSub]
    rw [if_neg]; rintro rfl; rw [ho] at h'; cases h'
  refine ⟨?_, ?_, ?_, ?_⟩
  · intro c x hx
    rcases hc c x hx with h' | h'
    · have := h.cons c x h'
      have e := keep _ (ownedSub_cons h')
      exact ⟨this.sub, by simp only [e]; exact this.cb, by simp only [e]; exact this.subTopic, this.pub, this.pubTopic, this.active, this.sorted⟩
    · exact h'
  · intro c x hx
    rcases hp c x hx with h' | h'
    · have := h.provs c x h'
      have e := keep _ (ownedSub_provs h')
      exact ⟨this.sub, by simp only [e]; exact this.cb, by simp only [e]; exact this.subTopic, this.pub, this.pubTopic, this.active⟩
    · exact h'
  · intro s' k' hk hm
    simp only [Bus.setCallback, Bus.World.setSub] at hk
    split at hk
    · simp only [Option.some.injEq] at hk; subst hk; subst_vars; exact hk1 hm
    · obtain ⟨x, hx, e⟩ := h.backC s' k' hk hm; exact ⟨x, hc' _ _ hx, e⟩
  · intro s' k' hk hm
    simp only [Bus.setCallback, Bus.World.setSub] at hk
    split at hk
    · simp only [Option.some.injEq] at hk; subst hk; subst_vars; exact hk2 hm
    · obtain ⟨x, hx, e⟩ := h.backP s' k' hk hm; exact ⟨x, hp' _ _ hx, e⟩

/-- Changing the open requests of one consumer. -/
theorem cons_modify {l : List Cons} {c : Nat} {f : Cons → Cons} {i : Nat} {x' : Cons} (h : (l.modify c f)[i]? = some x') :
    ∃ x, l[i]? = some x ∧ x' = if i = c then f x else x := by
  rw [List.getElem?_modify] at h
  cases hx : l[i]? with
  | none => simp [hx] at h
  | some x =>
    simp only [hx, Option.map_eq_map, Option.map_some, Option.some.injEq] at h
    refine ⟨x, rfl, ?_⟩
    rw [← h]; by_cases e : i = c
    · simp [e]
    · simp [e, Ne.symm e]

theorem modify_getElem? {α : Type} {l : List α} {c : Nat} {f : α → α} {i : Nat} {x : α} (h : l[i]? = some x) :
    (l.modify c f)[i]? = some (if i = c then f x else x) := by
  rw [List.getElem?_modify, h]
  by_cases e : i = c
  · simp [e]
  · simp [e, Ne.symm e]

theorem set_inv {α : Type} {l : List α} {c : Nat} {y : α} {i : Nat} {x' : α} (h : (l.set c y)[i]? = some x') :
    (i = c ∧ x' = y) ∨ (i ≠ c ∧ l[i]? = some x') := by
  by_cases e : i = c
  · subst e
    rw [List.getElem?_set_self (by have := (List.getElem?_eq_some_iff.1 h).1; simpa using this)] at h
    cases h; exact .inl ⟨rfl, rfl⟩
  · rw [List.getElem?_set_ne (Ne.symm e)] at h
    exact .inr ⟨e, h⟩

theorem set_getElem? {α : Type} {l : List α} {c : Nat} {y : α} {i : Nat} {x : α} (h : l[i]? = some x) :
    (l.set c y)[i]? = some (if i = c then y else x) := by
  by_cases e : i = c
  · subst e; rw [List.getElem?_set_self (List.getElem?_eq_some_iff.1 h).1]; simp
  · rw [List.getElem?_set_ne (Ne.symm e), h]; simp [e]

/-- What ending a callback does to the consumers. -/
theorem endCb_cons {σ : St} {b : Bus.St} {c : Bus.Choice} {i : Nat} {x' : Cons} (h : (endCb σ b c).cons[i]? = some x') :
    ∃ x, σ.cons[i]? = some x ∧ (x' = x ∨ ∃ id cb t st, σ.cur = .answering i id cb t st ∧ c = .go ∧
      x' = { x with opened := x.opened.erase id }) := by
  unfold endCb at h
  split at h
  · rename_i k id cb t st hc
    obtain ⟨x, hx, e⟩ := cons_modify h
    by_cases hi : i = k
    · subst hi; simp at e; exact ⟨x, hx, .inr ⟨id, cb, t, st, hc, rfl, e⟩⟩
    · simp [hi] at e; exact ⟨x, hx, .inl e⟩
  · exact ⟨x', h, .inl rfl⟩
  · exact ⟨x', h, .inl rfl⟩

theorem endCb_cons' {σ : St} {b : Bus.St} {c : Bus.Choice} {i : Nat} {x : Cons} (h : σ.cons[i]? = some x) :
    ∃ x', (endCb σ b c).cons[i]? = some x' ∧ x'.topic = x.topic ∧ x'.sub = x.sub ∧ x'.pub = x.pub := by
  unfold endCb
  split
  · rename_i k id cb t st hc
    simp only [closeRequest]
    rw [modify_getElem? h]
    split
    · exact ⟨_, rfl, rfl, rfl, rfl⟩
    · exact ⟨_, rfl, rfl, rfl, rfl⟩
  · exact ⟨x, h, rfl, rfl, rfl⟩
  · exact ⟨x, h, rfl, rfl, rfl⟩

theorem endCb_same (σ : St) (b : Bus.St) (c : Bus.Choice) : (endCb σ b c).bus = b ∧ (endCb σ b c).provs = σ.provs ∧
    (endCb σ b c).pending = σ.pending ∧ (endCb σ b c).frames = σ.frames ∧ (endCb σ b c).cur = .idle ∧
    (endCb σ b c).inside = none ∧ (endCb σ b c).evs = σ.evs ∧ (endCb σ b c).asked = σ.asked ∧
    (endCb σ b c).replied = σ.replied := by
  unfold endCb
  split <;> simp [closeRequest]

theorem own_register {σ σ' : St} (h : Own σ) {c : Nat} {x : Cons} {id : Str} {cb : Cb} (hx : σ.cons[c]? = some x)
    (hb : σ'.bus = σ.bus) (hp : σ'.provs = σ.provs)
    (hc : σ'.cons = σ.cons.set c { x with opened := x.opened.insert id cb }) : Own σ' := by
  refine h.same (by rw [hb]) (by rw [hb]) (by rw [hb]) (by rw [hb]) ?_ ?_ (fun _ x h => ⟨x, hp ▸ h, rfl, rfl, rfl⟩)
    (fun _ x h => ⟨x, hp.symm ▸ h, rfl⟩)
  · intro i x' hx'
    rw [hc] at hx'
    rcases set_inv hx' with ⟨rfl, rfl⟩ | ⟨_, h'⟩
    · exact ⟨x, hx, rfl, rfl, rfl, Dict.insert_sorted⟩
    · exact ⟨x', h', rfl, rfl, rfl, fun h => h⟩
  · intro i y hy
    rw [hc, set_getElem? hy]
    refine ⟨_, rfl, ?_⟩
    split
    · subst_vars; rw [hx] at hy; cases hy; rfl
    · rfl

theorem own_step {σ σ' : St} {a : Act} (h : Own σ) (hs : step σ a = .to σ') : Own σ' := by
  cases step_eff hs with
  | client a b h1 h2 => exact own_client h h1 h2
  | endCb c b h1 h2 h3 h4 h5 h6 =>
    obtain ⟨g1, g2, g3, g4, _⟩ := rstep_cases h2
    obtain ⟨e1, e2, _⟩ := endCb_same σ b c
    refine h.same (by rw [e1, g1]) (by rw [e1, g2]) (by rw [e1, g3]) (by rw [e1, g4]) ?_ ?_
      (fun _ x h => ⟨x, e2 ▸ h, rfl, rfl, rfl⟩) (fun _ x h => ⟨x, e2.symm ▸ h, rfl⟩)
    · intro i x' hx'
      obtain ⟨x, hx, rfl | ⟨id, cb, t, st, _, _, rfl⟩⟩ := endCb_cons hx'
      · exact ⟨_, hx, rfl, rfl, rfl, id⟩
      · exact ⟨_, hx, rfl, rfl, rfl, Dict.erase_sorted⟩
    · intro i x hx
      obtain ⟨x', hx', _, e, _⟩ := endCb_cons' (b := b) (c := c) hx
      exact ⟨x', hx', e⟩
  | quiet c b h1 h2 h3 h4 h5 =>
    obtain ⟨g1, g2, g3, g4, _⟩ := rstep_cases h2
    exact h.sameBus g1 g2 g3 g4 rfl rfl
  | deliver c b d h1 h2 h3 h4 h5 h6 =>
    obtain ⟨g1, g2, g3, g4, _⟩ := rstep_cases h2
    obtain ⟨e1, e2, e3, _⟩ := dispatch_same { σ with bus := b } d
    exact h.sameBus (by rw [e1]; exact g1) (by rw [e1]; exact g2) (by rw [e1]; exact g3) (by rw [e1]; exact g4) e2 e3
  | test c id n t f h1 h2 h3 => exact h.sameBus rfl rfl rfl rfl rfl rfl
  | store c id n t f h1 h2 h3 => exact h.sameBus rfl rfl rfl rfl rfl rfl
  | flag c id n t f h1 h2 h3 => exact h.sameBus rfl rfl rfl rfl rfl rfl
  | wake c id n t f h1 h2 h3 => exact h.sameBus rfl rfl rfl rfl rfl rfl
  | consumer q s topic b h1 h2 h3 h4 h5 h6 h7 h8 h9 h10 h11 =>
    rw [setCb_world h11]
    refine own_install h h9 ?_ (fun _ _ h => .inl h) (fun _ _ h => getElem?_append_old h) (fun _ _ h => h) ?_ ?_
    · intro c x hx
      rcases getElem?_append_one hx with h' | ⟨rfl, rfl⟩
      · exact .inl h'
      · refine .inr ⟨h2, ?_, ?_, h1, h3, h6, by simp⟩
        · simp [Bus.setCallback, Bus.World.setSub]
        · simp [Bus.setCallback, Bus.World.setSub, h4]
    · intro _
      have : (3 * σ.cons.length + 1) / 3 = σ.cons.length := by omega
      rw [this]
      exact ⟨⟨topic, s, q, []⟩, by simp, rfl⟩
    · intro h; omega
  | provider s q topic cb b h1 h2 h3 h4 h5 h6 h7 h8 h9 h10 h11 =>
    rw [setCb_world h11]
    refine own_install h h9 (fun _ _ h => .inl h) ?_ (fun _ _ h => h) (fun _ _ h => getElem?_append_old h) ?_ ?_
    · intro c x hx
      rcases getElem?_append_one hx with h' | ⟨rfl, rfl⟩
      · exact .inl h'
      · refine .inr ⟨h2, ?_, ?_, h1, h3, h6⟩
        · simp [Bus.setCallback, Bus.World.setSub]
        · simp [Bus.setCallback, Bus.World.setSub, h4]
    · intro h; omega
    · intro _
      have : (3 * σ.provs.length + 2) / 3 = σ.provs.length := by omega
      rw [this]
      exact ⟨⟨topic, s, q, cb⟩, by simp, rfl⟩
  | reset p =>
    refine h.same rfl rfl rfl rfl (fun _ x h => ⟨x, h, rfl, rfl, rfl, id⟩) (fun _ x h => ⟨x, h, rfl⟩) ?_ ?_
    · intro i x' hx'
      simp only [List.getElem?_modify] at hx'
      cases hx : σ.provs[i]? with
      | none => simp [hx] at hx'
      | some x =>
        simp only [hx, Option.map_eq_map, Option.map_some, Option.some.injEq] at hx'
        refine ⟨x, rfl, ?_⟩
        rw [← hx']; split <;> exact ⟨rfl, rfl, rfl⟩
    · intro i x hx
      refine ⟨_, modify_getElem? hx, ?_⟩
      split <;> rfl
  | request c id k t x hx => exact own_register h hx rfl rfl rfl
  | begin c id t onBus x hx ho => exact own_register h hx rfl rfl rfl
  | send i p x b h1 h2 h3 =>
    have := pubPublish_world h3
    exact h.sameBus (by simp only [this]) (by simp only [this]) (by simp only [this]) (by simp only [this]) rfl rfl
  | respond p id t x b h1 h2 =>
    have := pubPublish_world h2
    exact h.sameBus (by simp only [this]) (by simp only [this]) (by simp only [this]) (by simp only [this]) rfl rfl
  | look n f h1 h2 h3 => exact h.sameBus rfl rfl rfl rfl rfl rfl
  | leave n f h1 h2 h3 => exact h.sameBus rfl rfl rfl rfl rfl rfl
  | sleep n f h1 h2 => exact h.sameBus rfl rfl rfl rfl rfl rfl
  | spurious n f h1 h2 => exact h.sameBus rfl rfl rfl rfl rfl rfl
  | timeout n f h1 h2 => exact h.sameBus rfl rfl rfl rfl rfl rfl

theorem Reachable.own {σ : St} (h : Reachable σ) : Own σ := by
  refine reachable_induct (P := Own) ?_ (fun σ a σ' _ hp hs => own_step hp hs) h
  intro name b hb
  have hcb : ∀ s, (b.w.sub s).cb = none := by
    intro s
    simp only [Bus.initial, Bus.newRoot] at hb
    split at hb <;> try cases hb
    rename_i w hw
    split at hw <;> cases hw
    rfl
  refine ⟨fun _ _ h => by simp at h, fun _ _ h => by simp at h, ?_, ?_⟩
  · intro s k hk; rw [hcb] at hk; cases hk
  · intro s k hk; rw [hcb] at hk; cases hk

/-- A delivery made by a bus step: the library's callback runs exactly for the owner of the subscriber. -/
theorem Own.consumer {σ : St} (h : Own σ) {d : Delivery} (hd : (σ.bus.w.sub d.sub).cb = some d.cb) {c : Nat} :
    fnOf d.cb = .consumer c ↔ ∃ x, σ.cons[c]? = some x ∧ d.sub = x.sub := by
  constructor
  · intro hf
    unfold fnOf at hf
    split at hf
    · rename_i hm
      cases hf
      obtain ⟨x, hx, e⟩ := h.backC _ _ hd hm
      exact ⟨x, hx, e.symm⟩
    · split at hf <;> cases hf
  · rintro ⟨x, hx, e⟩
    have := (h.cons c x hx).cb
    rw [← e, hd] at this
    simp only [Option.some.injEq] at this
    rw [this]; unfold fnOf
    rw [if_pos (by omega)]
    congr 1; omega

theorem Own.provider {σ : St} (h : Own σ) {d : Delivery} (hd : (σ.bus.w.sub d.sub).cb = some d.cb) {p : Nat} :
    fnOf d.cb = .provider p ↔ ∃ x, σ.provs[p]? = some x ∧ d.sub = x.sub := by
  constructor
  · intro hf
    unfold fnOf at hf
    split at hf
    · cases hf
    · split at hf
      · rename_i hm
        cases hf
        obtain ⟨x, hx, e⟩ := h.backP _ _ hd hm
        exact ⟨x, hx, e.symm⟩
      · cases hf
  · rintro ⟨x, hx, e⟩
    have := (h.provs p x hx).cb
    rw [← e, hd] at this
    simp only [Option.some.injEq] at this
    rw [this]; unfold fnOf
    rw [if_neg (by omega), if_pos (by omega)]
    congr 1; omega

end LP.Action
