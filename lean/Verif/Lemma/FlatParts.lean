import Verif.Lemma.FlatBytes
/-! # Strings and vectors of offsets: what is written is read -/
namespace LP.Flat

/-- A string stands `e` bytes before the end. -/
def IsStr (b : Bytes) (e : Nat) (s : Str) : Prop := At b e (put 4 s.length ++ s) ∧ e % 4 = 0

/-- A vector of offsets to these places stands `e` bytes before the end. -/
def IsVec (b : Bytes) (e : Nat) (os : List Nat) : Prop :=
  (At b e (put 4 os.length) ∧ e % 4 = 0) ∧ ∀ (i o : Nat), os[i]? = some o → At b (e - 4 - 4 * i) (put 4 (e - 4 - 4 * i - o)) ∧ o ≤ e - 4 - 4 * i

theorem IsStr.mono {b : Bytes} {e : Nat} {s : Str} (h : IsStr b e s) (z : Bytes) : IsStr (z ++ b) e s := ⟨h.1.mono z, h.2⟩
theorem IsStr.ext {b b' : Bytes} (h : Ext b b') {e : Nat} {s : Str} (g : IsStr b e s) : IsStr b' e s := ⟨h.at' g.1, g.2⟩
theorem IsVec.mono {b : Bytes} {e : Nat} {os : List Nat} (h : IsVec b e os) (z : Bytes) : IsVec (z ++ b) e os :=
  ⟨⟨h.1.1.mono z, h.1.2⟩, fun i o ho => ⟨(h.2 i o ho).1.mono z, (h.2 i o ho).2⟩⟩

theorem IsStr.read {b : Bytes} {e : Nat} {s : Str} (h : IsStr b e s) (hb : b.length < 2 ^ 31) (ha : b.length % 4 = 0) : string b (b.length - e) = .ok s := by
  have h1 := h.1.le
  have h2 := At.size h.1
  simp at h2
  have e1 := (At.left h.1).uint (by simp; omega) (Builder.sub_aligned ha h.2)
  have e2 := (At.right h.1).rd
  rw [put_length, ← place h1 (by omega)] at e2
  simp [string, e1, e2]

theorem target_at {b : Bytes} {e o : Nat} (h : At b e (put 4 (e - o))) (ho : o ≤ e) (he : e % 4 = 0) (hb : b.length < 2 ^ 31) (ha : b.length % 4 = 0) :
    target b (b.length - e) = .ok (b.length - o) := by
  have h1 := h.le
  have e1 := h.uint (by simp; omega) (Builder.sub_aligned ha he)
  simp only [target, e1, Rd.bind_ok, Rd.pure_eq]
  congr 1
  omega

theorem IsVec.size {b : Bytes} {e : Nat} {os : List Nat} (h : IsVec b e os) (ho : os.length < 2 ^ 31)
    (ha : b.length % 4 = 0) : uint b (b.length - e) 4 = .ok os.length := h.1.1.uint (by simp; omega) (Builder.sub_aligned ha h.1.2)

theorem IsVec.read {b : Bytes} {e : Nat} {os : List Nat} (h : IsVec b e os) (hb : b.length < 2 ^ 31) (ha : b.length % 4 = 0) {i o : Nat} (hi : os[i]? = some o) :
    element b (b.length - e) i = .ok (b.length - o) := by
  obtain ⟨h1, h2⟩ := h.2 i o hi
  have h3 := h1.size
  have h4 := h.1.1.le
  simp at h3
  have : b.length - e + 4 + 4 * i = b.length - (e - 4 - 4 * i) := by omega
  rw [element, this]
  exact target_at h1 h2 (by have := h.1.2; omega) hb ha

theorem IsVec.length {b : Bytes} {e : Nat} {os : List Nat} (h : IsVec b e os) (hb : b.length < 2 ^ 31) : os.length < 2 ^ 31 := by
  rcases Nat.eq_zero_or_pos os.length with hz | hz
  · omega
  have hi : os[os.length - 1]? = some (os[os.length - 1]'(by omega)) := by simp
  have h1 := (h.2 _ _ hi).1
  have h3 := h1.size
  have h4 := h.1.1.le
  simp at h3
  omega

namespace Builder

theorem createString_spec (s : Str) (st : Builder) :
    Ext st.buf (st.createString s).2.buf ∧ (st.createString s).1 = (st.createString s).2.buf.length ∧
      IsStr (st.createString s).2.buf (st.createString s).1 s ∧ 0 < (st.createString s).1 := by
  have hb : (st.createString s).2.buf = put 4 s.length ++ (s ++ (0 :: (st.preAlign (s.length + 1) 4).buf)) := by
    simp only [createString]
    rw [scalar_aligned]
    · simp [push]
    · simp only [push, List.length_append, preAlign_length, List.length_cons, List.length_nil]
      omega
  have hl : (st.createString s).1 = (st.createString s).2.buf.length := rfl
  refine ⟨?_, hl, ?_, ?_⟩
  · rw [hb]
    exact (preAlign_ext st (s.length + 1) 4).trans ⟨put 4 s.length ++ (s ++ [0]), by simp⟩
  · rw [hl, hb]
    refine ⟨⟨[], 0 :: (st.preAlign (s.length + 1) 4).buf, by simp, by simp⟩, ?_⟩
    simp only [List.length_append, put_length, List.length_cons, preAlign_length]
    omega
  · rw [hl, hb]; simp; omega

theorem createString_le (s : Str) (st : Builder) : (st.createString s).2.buf.length ≤ st.buf.length + s.length + 12 := by
  have h1 := preAlign_le st (s.length + 1) 4 (by omega)
  simp only [createString, scalar_length]
  have h2 := preAlign_le (((st.preAlign (s.length + 1) 4).push [0]).push s) 0 4 (by omega)
  simp only [push, List.length_append, List.length_cons, List.length_nil] at h2 ⊢
  simp only [preAlign_length, List.length_append, List.length_cons, List.length_nil] at h1 h2 ⊢
  omega

theorem elements_spec (os : List Nat) (st : Builder) (hs : st.buf.length % 4 = 0) (ho : ∀ o ∈ os, o ≤ st.buf.length) :
    Ext st.buf (elements os st).buf ∧ (elements os st).buf.length = 4 * os.length + st.buf.length ∧
      ∀ (i o : Nat), os[i]? = some o → At (elements os st).buf ((elements os st).buf.length - 4 * i) (put 4 ((elements os st).buf.length - 4 * i - o)) ∧
        o ≤ (elements os st).buf.length - 4 * i := by
  induction os with
  | nil => exact ⟨Ext.refl _, by simp [elements], by simp⟩
  | cons o os ih =>
    obtain ⟨h1, h2, h3⟩ := ih (fun x hx => ho x (List.mem_cons_of_mem _ hx))
    have hle : o ≤ (elements os st).buf.length := Nat.le_trans (ho o List.mem_cons_self) h1.le
    have hx := refer_ext (elements os st) o
    have hl : ((elements os st).refer o).buf.length = 4 + (elements os st).buf.length := by
      rw [refer_length, preAlign_length]; omega
    refine ⟨h1.trans hx, ?_, ?_⟩
    · simp only [elements, hl, h2, List.length_cons]; omega
    · intro i p hp
      simp only [elements]
      cases i with
      | zero =>
        simp at hp
        subst hp
        have := refer_at (elements os st) hle
        exact ⟨by simpa using this.1, by omega⟩
      | succ i =>
        have := h3 i p (by simpa using hp)
        rw [show ((elements os st).refer o).buf.length - 4 * (i + 1) = (elements os st).buf.length - 4 * i by omega]
        exact ⟨hx.at' this.1, this.2⟩

theorem createVector_spec (os : List Nat) (st : Builder) (ho : ∀ o ∈ os, o ≤ st.buf.length) :
    Ext st.buf (st.createVector os).2.buf ∧ (st.createVector os).1 = (st.createVector os).2.buf.length ∧
      IsVec (st.createVector os).2.buf (st.createVector os).1 os ∧ 0 < (st.createVector os).1 ∧
      (st.createVector os).2.buf.length ≤ st.buf.length + 4 * os.length + 7 := by
  have h0 := preAlign_ext st (os.length * 4) 4
  have hm : (st.preAlign (os.length * 4) 4).buf.length % 4 = 0 := by rw [preAlign_length]; omega
  obtain ⟨h1, h2, h3⟩ := elements_spec os (st.preAlign (os.length * 4) 4) hm (fun o hx => Nat.le_trans (ho o hx) h0.le)
  have hb : (st.createVector os).2.buf = put 4 os.length ++ (elements os (st.preAlign (os.length * 4) 4)).buf := by
    simp only [createVector]
    rw [scalar_aligned]
    omega
  have hl : (st.createVector os).1 = (st.createVector os).2.buf.length := rfl
  refine ⟨?_, hl, ⟨?_, ?_⟩, ?_, ?_⟩
  · rw [hb]; exact (h0.trans h1).trans ⟨_, rfl⟩
  · rw [hl, hb]
    refine ⟨At.here _ _, ?_⟩
    simp only [List.length_append, put_length]
    omega
  · intro i o hi
    have := h3 i o hi
    rw [hl, hb]
    have e : (put 4 os.length ++ (elements os (st.preAlign (os.length * 4) 4)).buf).length - 4 - 4 * i =
      (elements os (st.preAlign (os.length * 4) 4)).buf.length - 4 * i := by simp
    rw [e]
    exact ⟨this.1.mono _, this.2⟩
  · rw [hl, hb]; simp; omega
  · rw [hb]
    have := preAlign_le st (os.length * 4) 4 (by omega)
    simp
    omega

end Builder
end LP.Flat
