import Verif.Model.Flat
/-! # Lemmas about bytes at places of a buffer that grows at the front -/
namespace LP.Flat

@[simp] theorem Rd.bind_ok {α β : Type} (a : α) (f : α → Rd β) : (Rd.ok a >>= f) = f a := rfl
@[simp] theorem Rd.bind_outside {α β : Type} (f : α → Rd β) : ((Rd.outside : Rd α) >>= f) = Rd.outside := rfl
@[simp] theorem Rd.bind_fuel {α β : Type} (f : α → Rd β) : ((Rd.fuel : Rd α) >>= f) = Rd.fuel := rfl
@[simp] theorem Rd.pure_eq {α : Type} (a : α) : (pure a : Rd α) = Rd.ok a := rfl

@[simp] theorem put_length (n v : Nat) : (put n v).length = n := by
  induction n generalizing v with
  | zero => rfl
  | succ n ih => simp [put, ih]

theorem le_put (n v : Nat) : le (put n v) = v % 256 ^ n := by
  induction n generalizing v with
  | zero => simp [put, le, Nat.mod_one]
  | succ n ih =>
    simp only [put, le, ih]
    rw [Nat.pow_succ, Nat.mul_comm, Nat.mul_comm (256 ^ n), Nat.mod_mul]
    simp [Nat.mul_comm]

theorem le_lt (w : Bytes) : le w < 256 ^ w.length := by
  induction w with
  | nil => simp [le]
  | cons x xs ih =>
    have := x.toNat_lt
    simp only [le, List.length_cons, Nat.pow_succ]
    omega

/-- The bytes `w` stand `e` bytes before the end. -/
def At (b : Bytes) (e : Nat) (w : Bytes) : Prop := ∃ x y, b = x ++ (w ++ y) ∧ e = (w ++ y).length

namespace At
variable {b : Bytes} {e : Nat} {w u : Bytes}

theorem here (b w : Bytes) : At (w ++ b) (w ++ b).length w := ⟨[], b, rfl, rfl⟩
theorem mono (h : At b e w) (z : Bytes) : At (z ++ b) e w := by
  obtain ⟨x, y, rfl, rfl⟩ := h
  exact ⟨z ++ x, y, by simp, rfl⟩
theorem le (h : At b e w) : e ≤ b.length := by
  obtain ⟨x, y, rfl, rfl⟩ := h
  simp
theorem size (h : At b e w) : w.length ≤ e := by
  obtain ⟨x, y, rfl, rfl⟩ := h
  simp
theorem left (h : At b e (u ++ w)) : At b e u := by
  obtain ⟨x, y, rfl, rfl⟩ := h
  exact ⟨x, w ++ y, by simp, by simp⟩
theorem right (h : At b e (u ++ w)) : At b (e - u.length) w := by
  obtain ⟨x, y, rfl, rfl⟩ := h
  exact ⟨x ++ u, y, by simp, by simp only [List.length_append]; omega⟩
theorem rd (h : At b e w) : rd b (b.length - e) w.length = .ok w := by
  obtain ⟨x, y, rfl, rfl⟩ := h
  unfold Flat.rd
  have : (x ++ (w ++ y)).length - (w ++ y).length = x.length := by simp
  rw [this, if_pos (by simp)]
  simp
theorem uint {n v : Nat} (h : At b e (put n v)) (hv : v < 256 ^ n) (ha : (b.length - e) % n = 0) : uint b (b.length - e) n = .ok v := by
  have := h.rd
  rw [put_length] at this
  simp [Flat.uint, ha, this, le_put, Nat.mod_eq_of_lt hv]
end At

/-- Reading at a place `k` bytes behind a place. -/
theorem place {b : Bytes} {e k : Nat} (he : e ≤ b.length) (hk : k ≤ e) : b.length - e + k = b.length - (e - k) := by omega

/-- The first buffer is the end of the second. -/
def Ext (b b' : Bytes) : Prop := ∃ x, b' = x ++ b

namespace Ext
theorem refl (b : Bytes) : Ext b b := ⟨[], rfl⟩
theorem trans {a b c : Bytes} (h : Ext a b) (g : Ext b c) : Ext a c := by
  obtain ⟨x, rfl⟩ := h; obtain ⟨y, rfl⟩ := g
  exact ⟨y ++ x, by simp⟩
theorem le {a b : Bytes} (h : Ext a b) : a.length ≤ b.length := by
  obtain ⟨x, rfl⟩ := h; simp
theorem at' {a b : Bytes} (h : Ext a b) {e : Nat} {w : Bytes} (g : At a e w) : At b e w := by
  obtain ⟨x, rfl⟩ := h; exact g.mono x
end Ext

namespace Builder
variable (st : Builder)

theorem push_ext (w : Bytes) : Ext st.buf (st.push w).buf := ⟨w, rfl⟩
theorem preAlign_ext (l a : Nat) : Ext st.buf (st.preAlign l a).buf := ⟨_, rfl⟩
theorem preAlign_length (l a : Nat) : (st.preAlign l a).buf.length = (a - (st.buf.length + l) % a) % a + st.buf.length := by
  simp [preAlign]
theorem preAlign_le (l a : Nat) (ha : 0 < a) : (st.preAlign l a).buf.length < st.buf.length + a := by
  rw [preAlign_length]
  have := Nat.mod_lt (a - (st.buf.length + l) % a) ha
  omega
theorem scalar_ext (n v : Nat) : Ext st.buf (st.scalar n v).buf := (preAlign_ext st 0 n).trans (push_ext _ _)
theorem scalar_at (n v : Nat) : At (st.scalar n v).buf (st.scalar n v).buf.length (put n v) := At.here _ _
theorem scalar_length (n v : Nat) : (st.scalar n v).buf.length = n + (st.preAlign 0 n).buf.length := by
  simp [scalar, push]
theorem scalar_aligned (v : Nat) (h : st.buf.length % 4 = 0) : (st.scalar 4 v).buf = put 4 v ++ st.buf := by
  simp only [scalar, push, preAlign]
  rw [show (4 - (st.buf.length + 0) % 4) % 4 = 0 by omega]
  rfl
/-- What is aligned from the end is aligned from the start, if the length is. -/
theorem sub_aligned {l e n : Nat} (h1 : l % n = 0) (h2 : e % n = 0) : (l - e) % n = 0 := by
  obtain ⟨x, rfl⟩ := Nat.dvd_of_mod_eq_zero h1
  obtain ⟨y, rfl⟩ := Nat.dvd_of_mod_eq_zero h2
  rw [← Nat.mul_sub]
  exact Nat.mul_mod_right _ _

theorem preAlign_mod (l a : Nat) (ha : 0 < a) : ((st.preAlign l a).buf.length + l) % a = 0 := by
  rw [preAlign_length]
  have h1 := Nat.mod_lt (st.buf.length + l) ha
  have h2 := Nat.div_add_mod (st.buf.length + l) a
  rcases Nat.eq_zero_or_pos ((st.buf.length + l) % a) with h | h
  · rw [h, Nat.sub_zero, Nat.mod_self, Nat.zero_add, h]
  · rw [Nat.mod_eq_of_lt (a := a - _) (by omega)]
    have : a - (st.buf.length + l) % a + st.buf.length + l = a * ((st.buf.length + l) / a + 1) := by
      rw [Nat.mul_add]; omega
    rw [this, Nat.mul_mod_right]
theorem scalar_mod (n v : Nat) (hn : 0 < n) : (st.scalar n v).buf.length % n = 0 := by
  have := preAlign_mod st 0 n hn
  simp only [scalar, push, List.length_append, put_length]
  rw [Nat.add_mod_left]
  simpa using this
theorem scalar_wide (n v : Nat) : n ≤ (st.scalar n v).minalign ∧ st.minalign ≤ (st.scalar n v).minalign := by
  simp only [scalar, push, preAlign]; omega
theorem preAlign4 : (st.preAlign 0 4).buf.length % 4 = 0 := by
  rw [preAlign_length]
  omega
theorem refer_buf (o : Nat) : (st.refer o).buf = put 4 ((st.preAlign 0 4).buf.length - o + 4) ++ (st.preAlign 0 4).buf := by
  simp only [refer]
  exact scalar_aligned _ _ (preAlign4 st)
theorem refer_ext (o : Nat) : Ext st.buf (st.refer o).buf := by
  rw [refer_buf]; exact (preAlign_ext st 0 4).trans ⟨_, rfl⟩
theorem refer_length (o : Nat) : (st.refer o).buf.length = 4 + (st.preAlign 0 4).buf.length := by
  rw [refer_buf]; simp
theorem refer_mod (o : Nat) : (st.refer o).buf.length % 4 = 0 := by
  have := preAlign4 st
  rw [refer_length]; omega
theorem refer_wide (o : Nat) : st.minalign ≤ (st.refer o).minalign := by
  simp only [refer, scalar, push, preAlign]; omega
theorem refer_at {o : Nat} (ho : o ≤ st.buf.length) :
    At (st.refer o).buf (st.refer o).buf.length (put 4 ((st.refer o).buf.length - o)) ∧ o + 4 ≤ (st.refer o).buf.length := by
  have h1 := refer_length st o
  have h2 := (preAlign_ext st 0 4).le
  have e : (st.refer o).buf.length - o = (st.preAlign 0 4).buf.length - o + 4 := by omega
  refine ⟨?_, by omega⟩
  rw [e, refer_buf]
  exact At.here _ _

end Builder
end LP.Flat
