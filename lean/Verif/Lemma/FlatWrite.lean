import Verif.Lemma.FlatTable
/-! # Datagrams: what is written is read -/
namespace LP.Flat

/-- Vtables lie in the buffer, at even places, and no alignment above 8 was asked for. -/
def Builder.WF (st : Builder) : Prop := (∀ o ∈ st.vtables, o ≤ st.buf.length ∧ o % 2 = 0) ∧ st.minalign ≤ 8

/-- A length below 2 GiB that is a multiple of 4, and of 8 if the alignment `a` asks for it. -/
def Lim (a l : Nat) : Prop := l < 2 ^ 31 ∧ l % 4 = 0 ∧ (8 ≤ a → l % 8 = 0)

/-- The table `e` bytes before the end reads as `f`, whatever is put in front, if the whole is aligned to `a`. -/
def IsDg (b : Bytes) (e : Nat) (f : FB) (a : Nat) : Prop :=
  e ≤ b.length ∧ 0 < e ∧ ∀ (x : Bytes) (n : Nat), Lim a (x ++ b).length → f.depth ≤ n → datagram n (x ++ b) ((x ++ b).length - e) = .ok f

theorem IsDg.ext {b b' : Bytes} (h : Ext b b') {e : Nat} {f : FB} {a a' : Nat} (hf : IsDg b e f a) (ha : a ≤ a') : IsDg b' e f a' := by
  obtain ⟨y, rfl⟩ := h
  refine ⟨Nat.le_trans hf.1 (by simp), hf.2.1, fun x n hx hn => ?_⟩
  have := hf.2.2 (x ++ y) n ⟨by simpa using hx.1, by simpa using hx.2.1, fun h => by simpa using hx.2.2 (Nat.le_trans h ha)⟩ hn
  simpa using this

theorem scalar_read {b : Bytes} {e : Nat} {fs : List (Nat × Nat)} (hF : Builder.HasFields b e fs) {i n v : Nat}
    (hp : Builder.Placed b fs (.scalar (4 + 2 * i) n v)) (hv : v < 256 ^ n) (x : Bytes) (hx : (x ++ b).length < 2 ^ 31)
    (h4 : (x ++ b).length % 4 = 0) (hn : v ≠ 0 → (x ++ b).length % n = 0) :
    scalar (x ++ b) ((x ++ b).length - e) (4 + 2 * i) n = .ok v := by
  unfold scalar
  rw [hF x hx h4 i]
  rcases hp with ⟨h1, h2⟩ | ⟨h1, o, h2, h3, h5⟩
  · simp only [h2, Option.map_none, Rd.bind_ok, Rd.pure_eq, h1]
  · simp only [h2, Option.map_some, Rd.bind_ok]
    exact (h3.mono x).uint hv (Builder.sub_aligned (hn h1) h5)

theorem pointer_read {b : Bytes} {e : Nat} {fs : List (Nat × Nat)} (hF : Builder.HasFields b e fs) {i o : Nat}
    (hp : Builder.Placed b fs (.offset (4 + 2 * i) o)) (x : Bytes) (hx : (x ++ b).length < 2 ^ 31) (h4 : (x ++ b).length % 4 = 0) :
    pointer (x ++ b) ((x ++ b).length - e) (4 + 2 * i) = .ok (if o = 0 then none else some ((x ++ b).length - o)) := by
  unfold pointer
  rw [hF x hx h4 i]
  rcases hp with ⟨h1, h2⟩ | ⟨h1, q, h2, h3, h5, h6⟩
  · simp only [h2, Option.map_none, Rd.bind_ok, Rd.pure_eq, h1, if_true]
  · simp only [h2, Option.map_some, Rd.bind_ok, Rd.pure_eq]
    rw [target_at (h3.mono x) h5 h6 hx h4, if_neg h1]
    rfl

theorem stringField_read {b : Bytes} {e : Nat} {fs : List (Nat × Nat)} (hF : Builder.HasFields b e fs) {i o : Nat} {s : Str}
    (hp : Builder.Placed b fs (.offset (4 + 2 * i) o)) (ho : 0 < o) (hs : IsStr b o s) (x : Bytes) (hx : (x ++ b).length < 2 ^ 31)
    (h4 : (x ++ b).length % 4 = 0) :
    stringField (x ++ b) ((x ++ b).length - e) (4 + 2 * i) = .ok (some s) := by
  unfold stringField
  rw [pointer_read hF hp x hx h4, if_neg (by omega)]
  simp only [Rd.bind_ok, (hs.mono x).read hx h4, Rd.pure_eq]

theorem each_ok {β : Type} (f : Nat → Rd β) : ∀ (is : List Nat) (l : List β), is.length = l.length →
    (∀ (j i : Nat) (x : β), is[j]? = some i → l[j]? = some x → f i = .ok x) → Rd.each f is = .ok l := by
  intro is
  induction is with
  | nil => intro l hl _; cases l with
    | nil => rfl
    | cons => simp at hl
  | cons i is ih => intro l hl h; cases l with
    | nil => simp at hl
    | cons x l =>
      have h1 := h 0 i x (by simp) (by simp)
      have h2 := ih l (by simpa using hl) (fun j i' x' a b => h (j + 1) i' x' (by simpa using a) (by simpa using b))
      simp only [Rd.each, h1, h2, Rd.bind_ok, Rd.pure_eq]

theorem range_ok {β : Type} (f : Nat → Rd β) (l : List β) (h : ∀ (i : Nat) (x : β), l[i]? = some x → f i = .ok x) :
    Rd.each f (List.range l.length) = .ok l := by
  refine each_ok f _ l (by simp) (fun j i x hj hx => ?_)
  have : j < l.length := by
    rcases Nat.lt_or_ge j l.length with h | h
    · exact h
    · simp [List.getElem?_eq_none h] at hx
  simp [List.getElem?_range this] at hj
  subst hj
  exact h j x hx

theorem depthL_mem {l : List FB} {f : FB} (h : f ∈ l) : f.depth ≤ FB.depth.depthL l := by
  induction l with
  | nil => simp at h
  | cons g l ih =>
    simp only [FB.depth.depthL]
    rcases List.mem_cons.mp h with rfl | h
    · omega
    · have := ih h; omega

/-! ## Tables of each kind -/

section
variable {b : Bytes} {e a : Nat} {fs : List (Nat × Nat)}

theorem dg_list (h1 : e ≤ b.length) (h2 : 0 < e) (hF : Builder.HasFields b e fs) {lv : Nat} {es : List Nat} {l : List FB}
    (ht : Builder.Placed b fs (.scalar 4 1 2)) (hl : Builder.Placed b fs (.offset 16 lv)) (hv : IsVec b lv es) (hlv : 0 < lv)
    (hlen : es.length = l.length) (hc : ∀ (i o : Nat) (f : FB), es[i]? = some o → l[i]? = some f → IsDg b o f a) :
    IsDg b e (.mk 2 0 none 0 0 false (some l) (some []) (some [])) a := by
  refine ⟨h1, h2, fun x n hx hn => ?_⟩
  cases n with
  | zero => simp [FB.depth] at hn
  | succ n =>
    have e1 := scalar_read hF (i := 0) ht (by decide) x hx.1 hx.2.1 (fun _ => Nat.mod_one _)
    have e2 := pointer_read hF (i := 6) hl x hx.1 hx.2.1
    rw [if_neg (by omega)] at e2
    have hv' := hv.mono x
    have hsz := hv'.length hx.1
    have e3 := hv'.size hsz hx.2.1
    unfold datagram
    simp only [Nat.mul_zero, Nat.add_zero] at e1
    simp only [e1, Rd.bind_ok]
    rw [if_neg (by decide), if_pos (by decide), e2]
    simp only [Rd.bind_ok, e3]
    rw [hlen, range_ok _ l]
    · simp
    · intro i f hi
      have hlt : i < es.length := by
        rcases Nat.lt_or_ge i l.length with h | h
        · omega
        · simp [List.getElem?_eq_none h] at hi
      have hes : es[i]? = some es[i] := by simp [hlt]
      rw [hv'.read hx.1 hx.2.1 hes]
      simp only [Rd.bind_ok]
      refine (hc i _ f hes hi).2.2 x n hx ?_
      have := depthL_mem (List.mem_of_getElem? hi)
      simp [FB.depth, FB.depth.depthO] at hn
      omega

theorem dg_dict (h1 : e ≤ b.length) (h2 : 0 < e) (hF : Builder.HasFields b e fs) {kv cv : Nat} {ks es : List Nat} {k : List Str} {c : List FB}
    (ht : Builder.Placed b fs (.scalar 4 1 3)) (hk : Builder.Placed b fs (.offset 18 kv)) (hc : Builder.Placed b fs (.offset 20 cv))
    (hkv : IsVec b kv ks) (hcv : IsVec b cv es) (k0 : 0 < kv) (c0 : 0 < cv) (l1 : ks.length = k.length) (l2 : es.length = c.length)
    (l3 : k.length = c.length) (hks : ∀ (i o : Nat) (s : Str), ks[i]? = some o → k[i]? = some s → IsStr b o s)
    (hcs : ∀ (i o : Nat) (f : FB), es[i]? = some o → c[i]? = some f → IsDg b o f a) :
    IsDg b e (.mk 3 0 none 0 0 false (some []) (some k) (some c)) a := by
  refine ⟨h1, h2, fun x n hx hn => ?_⟩
  cases n with
  | zero => simp [FB.depth] at hn
  | succ n =>
    have e1 := scalar_read hF (i := 0) ht (by decide) x hx.1 hx.2.1 (fun _ => Nat.mod_one _)
    have e2 := pointer_read hF (i := 7) hk x hx.1 hx.2.1
    have e3 := pointer_read hF (i := 8) hc x hx.1 hx.2.1
    rw [if_neg (by omega)] at e2 e3
    have hk' := hkv.mono x
    have hc' := hcv.mono x
    have e4 := hk'.size (hk'.length hx.1) hx.2.1
    have e5 := hc'.size (hc'.length hx.1) hx.2.1
    unfold datagram
    simp only [Nat.mul_zero, Nat.add_zero] at e1
    simp only [e1, Rd.bind_ok]
    rw [if_neg (by decide), if_neg (by decide), if_pos (by decide), e2]
    simp only [Rd.bind_ok, e3, e4, e5]
    have hz : min ks.length es.length = (k.zip c).length := by simp [l1, l2]
    rw [hz, range_ok _ (k.zip c)]
    · simp only [Rd.bind_ok, Rd.pure_eq]
      rw [List.map_fst_zip (by omega), List.map_snd_zip (by omega)]
    · intro i p hi
      obtain ⟨s, f⟩ := p
      obtain ⟨a1, a2⟩ := List.getElem?_zip_eq_some.mp hi
      simp only at a1 a2
      have hlt : i < c.length := by
        rcases Nat.lt_or_ge i c.length with h | h
        · exact h
        · simp [List.getElem?_eq_none h] at a2
      have hk1 : ks[i]? = some (ks[i]'(by omega)) := by simp
      have hc1 : es[i]? = some (es[i]'(by omega)) := by simp
      rw [hk'.read hx.1 hx.2.1 hk1]
      simp only [Rd.bind_ok]
      rw [((hks i _ s hk1 a1).mono x).read hx.1 hx.2.1]
      simp only [Rd.bind_ok]
      rw [hc'.read hx.1 hx.2.1 hc1]
      simp only [Rd.bind_ok]
      rw [(hcs i _ f hc1 a2).2.2 x n hx]
      · rfl
      · have := depthL_mem (List.mem_of_getElem? a2)
        simp [FB.depth, FB.depth.depthO] at hn
        omega

theorem dg_str (h1 : e ≤ b.length) (h2 : 0 < e) (hF : Builder.HasFields b e fs) {so : Nat} {s : Str}
    (ht : Builder.Placed b fs (.scalar 4 1 1)) (hv : Builder.Placed b fs (.scalar 6 1 0)) (hs : Builder.Placed b fs (.offset 8 so))
    (s0 : 0 < so) (hS : IsStr b so s) : IsDg b e (.mk 1 0 (some s) 0 0 false (some []) (some []) (some [])) a := by
  refine ⟨h1, h2, fun x n hx hn => ?_⟩
  cases n with
  | zero => simp [FB.depth] at hn
  | succ n =>
    have e1 := scalar_read hF (i := 0) ht (by decide) x hx.1 hx.2.1 (fun _ => Nat.mod_one _)
    have e2 := scalar_read hF (i := 1) hv (by decide) x hx.1 hx.2.1 (fun _ => Nat.mod_one _)
    have e3 := stringField_read hF (i := 2) hs s0 hS x hx.1 hx.2.1
    simp only [Nat.mul_zero, Nat.add_zero, Nat.mul_one, Nat.reduceAdd, Nat.reduceMul] at e1 e2 e3
    simp [-List.length_append, datagram, e1, e2, e3]

theorem dg_int (h1 : e ≤ b.length) (h2 : 0 < e) (hF : Builder.HasFields b e fs) {i : Int32}
    (ht : Builder.Placed b fs (.scalar 4 1 1)) (hv : Builder.Placed b fs (.scalar 6 1 1)) (hs : Builder.Placed b fs (.scalar 10 4 i.toUInt32.toNat)) :
    IsDg b e (.mk 1 1 none i 0 false (some []) (some []) (some [])) a := by
  refine ⟨h1, h2, fun x n hx hn => ?_⟩
  cases n with
  | zero => simp [FB.depth] at hn
  | succ n =>
    have e1 := scalar_read hF (i := 0) ht (by decide) x hx.1 hx.2.1 (fun _ => Nat.mod_one _)
    have e2 := scalar_read hF (i := 1) hv (by decide) x hx.1 hx.2.1 (fun _ => Nat.mod_one _)
    have e3 := scalar_read hF (i := 3) hs (by have := i.toUInt32.toNat_lt; simpa using this) x hx.1 hx.2.1 (fun _ => hx.2.1)
    simp only [Nat.mul_zero, Nat.add_zero, Nat.mul_one, Nat.reduceAdd, Nat.reduceMul] at e1 e2 e3
    have e4 : Int32.ofInt (i.toUInt32.toNat : Int) = i := by
      have : (i.toUInt32.toNat : Int) = (i.toBitVec.toNat : Int) := rfl
      rw [this]
      exact Int32.toBitVec.inj (by simp)
    simp [-List.length_append, datagram, e1, e2, e3, e4]

theorem dg_dbl (h1 : e ≤ b.length) (h2 : 0 < e) (hF : Builder.HasFields b e fs) {d : Dbl}
    (ht : Builder.Placed b fs (.scalar 4 1 1)) (hv : Builder.Placed b fs (.scalar 6 1 2)) (hs : Builder.Placed b fs (.scalar 12 8 d.toNat))
    (hd : d.toNat ≠ 0 → 8 ≤ a) :
    IsDg b e (.mk 1 2 none 0 d false (some []) (some []) (some [])) a := by
  refine ⟨h1, h2, fun x n hx hn => ?_⟩
  cases n with
  | zero => simp [FB.depth] at hn
  | succ n =>
    have e1 := scalar_read hF (i := 0) ht (by decide) x hx.1 hx.2.1 (fun _ => Nat.mod_one _)
    have e2 := scalar_read hF (i := 1) hv (by decide) x hx.1 hx.2.1 (fun _ => Nat.mod_one _)
    have e3 := scalar_read hF (i := 4) hs (by have := d.isLt; simpa using this) x hx.1 hx.2.1 (fun h => hx.2.2 (hd h))
    simp only [Nat.mul_zero, Nat.add_zero, Nat.mul_one, Nat.reduceAdd, Nat.reduceMul] at e1 e2 e3
    simp [-List.length_append, datagram, e1, e2, e3]

theorem dg_bool (h1 : e ≤ b.length) (h2 : 0 < e) (hF : Builder.HasFields b e fs) {v : Bool}
    (ht : Builder.Placed b fs (.scalar 4 1 1)) (hv : Builder.Placed b fs (.scalar 6 1 3)) (hs : Builder.Placed b fs (.scalar 14 1 v.toNat)) :
    IsDg b e (.mk 1 3 none 0 0 v (some []) (some []) (some [])) a := by
  refine ⟨h1, h2, fun x n hx hn => ?_⟩
  cases n with
  | zero => simp [FB.depth] at hn
  | succ n =>
    have e1 := scalar_read hF (i := 0) ht (by decide) x hx.1 hx.2.1 (fun _ => Nat.mod_one _)
    have e2 := scalar_read hF (i := 1) hv (by decide) x hx.1 hx.2.1 (fun _ => Nat.mod_one _)
    have e3 := scalar_read hF (i := 5) hs (by cases v <;> decide) x hx.1 hx.2.1 (fun _ => Nat.mod_one _)
    simp only [Nat.mul_zero, Nat.add_zero, Nat.mul_one, Nat.reduceAdd, Nat.reduceMul] at e1 e2 e3
    cases v <;> simp [-List.length_append, datagram, e1, e2] <;> simp [-List.length_append] at e3 <;> simp [-List.length_append, e3]

theorem dg_empty (h1 : e ≤ b.length) (h2 : 0 < e) (hF : Builder.HasFields b e fs) (ht : Builder.Placed b fs (.scalar 4 1 0)) :
    IsDg b e (.mk 0 0 none 0 0 false (some []) (some []) (some [])) a := by
  refine ⟨h1, h2, fun x n hx hn => ?_⟩
  cases n with
  | zero => simp [FB.depth] at hn
  | succ n =>
    have e1 := scalar_read hF (i := 0) ht (by decide) x hx.1 hx.2.1 (fun _ => Nat.mod_one _)
    simp only [Nat.mul_zero, Nat.add_zero] at e1
    simp [-List.length_append, datagram, e1]

end
end LP.Flat
