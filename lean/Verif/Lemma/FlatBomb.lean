import Verif.Lemma.FlatRound
import Verif.Lemma.Shape
/-! # What serialisation produces, and small buffers with large documents -/
namespace LP.Flat
open Heap

theorem wireDbl_wireDbl (d : Dbl) : FB.wireDbl (FB.wireDbl d) = FB.wireDbl d := by
  unfold FB.wireDbl
  split
  · simp
  · simp_all

/-- Whatever the computation returns satisfies `P`. -/
def Post {α : Type} (m : M Heap α) (P : α → Prop) : Prop := ∀ h a h', m h = .ok a h' → P a

theorem Post.pure {α : Type} {P : α → Prop} {a : α} (h : P a) : Post (Pure.pure a) P := by
  intro h1 b h2 e
  simp only [M.pure_run, Res.ok.injEq] at e
  exact e.1 ▸ h
theorem Post.ub {α : Type} {P : α → Prop} : Post M.ub P := fun _ _ _ e => by cases e
theorem Post.bind {α β : Type} {m : M Heap α} {f : α → M Heap β} {Q : α → Prop} {P : β → Prop} (hm : Post m Q) (hf : ∀ a, Q a → Post (f a) P) :
    Post (m >>= f) P := by
  intro h b h' e
  simp only [M.bind_run] at e
  cases em : m h with
  | ok a h1 => rw [em] at e; exact hf a (hm _ _ _ em) _ _ _ e
  | _ => simp [em] at e
theorem Post.any {α : Type} (m : M Heap α) : Post m (fun _ => True) := fun _ _ _ _ => trivial

theorem Post.mapM {α β : Type} {f : α → M Heap β} {P : β → Prop} (hf : ∀ a, Post (f a) P) (l : List α) :
    Post (mapM' f l) (fun bs => bs.length = l.length ∧ ∀ b ∈ bs, P b) := by
  induction l with
  | nil => exact Post.pure (by simp)
  | cons a l ih =>
    exact Post.bind (hf a) (fun b hb => Post.bind ih (fun bs hbs => Post.pure ⟨by simp [hbs.1], fun c hc => by
      rcases List.mem_cons.mp hc with rfl | hc
      · exact hb
      · exact hbs.2 c hc⟩))

theorem serialize_plain : ∀ (n a : Nat), Post (Heap.serialize n a) Plain := by
  intro n
  induction n with
  | zero => intro a h f h' e; cases e
  | succ n ih =>
    intro a
    refine Post.bind (Post.any _) (fun h _ => ?_)
    simp only
    split
    · split
      · refine Post.bind (Post.any _) (fun v _ => ?_)
        split
        · exact Post.pure (.str _)
        · exact Post.ub
      split
      · refine Post.bind (Post.any _) (fun v _ => ?_)
        split
        · exact Post.pure (.int _)
        · exact Post.ub
      split
      · refine Post.bind (Post.any _) (fun v _ => ?_)
        split
        · exact Post.pure (.dbl (wireDbl_wireDbl _))
        · exact Post.ub
      split
      · refine Post.bind (Post.any _) (fun v _ => ?_)
        split
        · exact Post.pure (.bool _)
        · exact Post.ub
      · exact Post.pure .empty
    · refine Post.bind (Post.mapM (P := Plain) (fun p => Post.bind (Post.any _) (fun q _ => ih q)) _) (fun xs hxs => Post.pure (.list hxs.2))
    · refine Post.bind (Post.mapM (P := Plain) (fun p => Post.bind (Post.any _) (fun q _ => ih q)) _) (fun xs hxs => Post.pure (.dict ?_ hxs.2))
      simp [hxs.1]
    · exact Post.pure .empty

/-! ## A list of twice the same list of twice the same ... -/

/-- A full binary document as tables. -/
def fullFB : Nat → FB
  | 0 => .mk 1 3 none 0 0 true (some []) (some []) (some [])
  | k + 1 => .mk 2 0 none 0 0 false (some [fullFB k, fullFB k]) (some []) (some [])

/-- Each list refers to one table twice. -/
def bomb : Nat → Builder → Nat × Builder
  | 0, st => Builder.datagram (fullFB 0) st
  | k + 1, st =>
    let r := bomb k st
    let v1 := r.2.createVector [r.1, r.1]
    let v2 := v1.2.createVector []
    let v3 := v2.2.createVector []
    Builder.table (Builder.slots 2 0 0 0 0 false v1.1 v2.1 v3.1) v3.2

theorem bomb_spec (k : Nat) (st : Builder) (hw : st.WF) :
    Ext st.buf (bomb k st).2.buf ∧ (bomb k st).2.WF ∧ IsDg (bomb k st).2.buf (bomb k st).1 (fullFB k) (bomb k st).2.minalign ∧
      (bomb k st).2.buf.length ≤ st.buf.length + 208 * (k + 1) := by
  induction k with
  | zero =>
    obtain ⟨t1, t2, t3, t4, t5, t6, t7, t0, t8, t9, t10, tm, td, fs, t11, t12⟩ := Builder.tail_spec 1 3 0 0 0 true [] [] [] st hw (by omega)
      (by simp) (by simp) (by simp)
    simp only [bomb, fullFB, Builder.datagram, Builder.items, Builder.itemsL, Builder.pairs, Builder.pairsL, Option.getD_some]
    simp only [List.length_nil] at t0
    exact ⟨t1, t2, dg_bool t3 t4 t11 (t12 _ (by simp [Builder.slots])) (t12 _ (by simp [Builder.slots])) (t12 _ (by simp [Builder.slots])), by omega⟩
  | succ k ih =>
    obtain ⟨a1, a2, a4, a5⟩ := ih
    obtain ⟨t1, t2, t3, t4, t5, t6, t7, t0, t8, t9, t10, tm, td, fs, t11, t12⟩ := Builder.tail_spec 2 0 0 0 0 false [(bomb k st).1, (bomb k st).1] [] []
      (bomb k st).2 a2 (by omega) (by simp [a4.1]) (by simp) (by simp)
    simp only [List.length_nil, List.length_cons] at t0
    simp only [bomb, fullFB]
    refine ⟨a1.trans t1, t2, dg_list t3 t4 t11 (t12 _ (by simp [Builder.slots])) (t12 _ (by simp [Builder.slots])) t8 t5 rfl ?_, by omega⟩
    intro i o f ho hf
    match i with
    | 0 => simp at ho hf; subst ho; subst hf; exact a4.ext t1 tm
    | 1 => simp at ho hf; subst ho; subst hf; exact a4.ext t1 tm
    | i + 2 => simp at ho

/-- The whole message. -/
def bombMessage (k : Nat) : Bytes :=
  let s := Builder.new.createString []
  let d := bomb k s.2
  let r := Builder.table [.offset 8 d.1, .offset 6 s.1, .offset 4 s.1] d.2
  Builder.finish r.1 r.2

theorem bombMessage_spec (k : Nat) : (bombMessage k).length ≤ 400 + 208 * k ∧
    ((bombMessage k).length < 2 ^ 31 → message (bombMessage k) = .ok ⟨some [], some [], some (fullFB k)⟩) := by
  obtain ⟨c1, c2, c3, c4⟩ := Builder.createString_spec [] Builder.new
  have c5 := Builder.createString_le [] Builder.new
  have ma : (Builder.new.createString []).2.minalign ≤ 8 := Builder.align_createString (by simp [Builder.new])
  have w : (Builder.new.createString []).2.WF := ⟨fun o ho => by simp [Builder.createString_vtables, Builder.new] at ho, ma⟩
  obtain ⟨b1, b2, b4, b5⟩ := bomb_spec k _ w
  obtain ⟨_, m2, m3⟩ := message_read b2 (c3.ext b1) (c3.ext b1) c4 c4 b4
  refine ⟨?_, m3⟩
  have ma' : (Builder.table [.offset 8 (bomb k (Builder.new.createString []).2).1, .offset 6 (Builder.new.createString []).1,
      .offset 4 (Builder.new.createString []).1] (bomb k (Builder.new.createString []).2).2).2.minalign ≤ 8 :=
    Builder.align_table (m := (bomb k (Builder.new.createString []).2).1 + (Builder.new.createString []).1) (by
      intro q hq
      simp only [List.mem_cons, List.not_mem_nil, or_false] at hq
      rcases hq with rfl | rfl | rfl <;> simp only [Builder.Slot.Fits] <;> omega) b2.2
  have c6 : (Builder.new.createString []).2.buf.length ≤ 12 := by simpa [Builder.new] using c5
  show (Builder.finish _ _).length ≤ _
  refine Nat.le_trans m2 ?_
  omega

end LP.Flat
