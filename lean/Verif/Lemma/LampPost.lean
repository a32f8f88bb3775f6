import Verif.Model.LampPost
import Verif.Lemma.Observe
import Verif.Lemma.Exchange
/-! Configuration processing on documents. -/
namespace LP.Host
open Heap
open Plugin (Out)

theorem Sim.holds {s : DState} {st : Store} (h : Sim s st) {x : Nat} {t : Tree} (ht : st x = some t) : Holds s x t := by
  cases hx : s.env x with
  | none => rw [(h.dom x).1 hx] at ht; cases ht
  | some a => exact ⟨a, hx, h.rep x a t hx ht⟩

theorem Store.set_self {st : Store} {x : Nat} {t : Tree} (h : st x = some t) : st.set x t = st := by
  funext y; simp only [Store.set]; split
  · rename_i e; rw [e, h]
  · rfl

/-- A reading call that does not change anything, with result `R u` on document `u`. -/
def Reads {α : Type} (m : Nat → M Heap α) (R : Tree → Except Exn α) : Prop :=
  ∀ (h : Heap) b u, Rep h (fun z => z < h.next) u b →
    m b h = match R u with | .ok r => .ok r h | .error e => .throw e h

theorem ask_spec {α : Type} {s : DState} {st : Store} (hs : Sim s st) {x : Nat} {t : Tree} (ht : st x = some t)
    (p : List Sel) {m : Nat → M Heap α} {R : Tree → Except Exn α} (hm : Reads m R) :
    ∃ s', Sim s' (st.set x (Tree.editAt p Tree.eTouch t).1) ∧
      ask x p m s = match (Tree.editAt p Tree.eTouch t).2 with
        | some e => .throw e s'
        | none => match R (Tree.subAt p t) with | .ok r => .ok r s' | .error e => .throw e s' := by
  cases hx : s.env x with
  | none => rw [(hs.dom x).1 hx] at ht; cases ht
  | some a =>
    have hr := hs.rep x a t hx ht
    rcases follow_spec p hs.wf hr with ⟨b, h1, u, K, hf, hu, hru, g, hed, hl⟩ | ⟨e, h1, t1, hf, g, hed⟩
    · have h2 : Tree.editAt p Tree.eTouch t = (K u, none) := by rw [hed]; rfl
      refine ⟨⟨h1, s.env⟩, ?_, ?_⟩
      · rw [h2]; exact hs.edit hx ht g
      · rw [h2]
        have h3 := hm h1 b u hru
        simp only [ask, hx, M.bind_run, hf, h3, hu]
        cases R (Tree.subAt p t) <;> rfl
    · have h2 : Tree.editAt p Tree.eTouch t = (t1, some e) := by rw [hed]
      refine ⟨⟨h1, s.env⟩, ?_, ?_⟩
      · rw [h2]; exact hs.edit hx ht g
      · simp only [ask, hx, M.bind_run, hf, h2]

/-- Reading something that is there changes nothing. -/
theorem ask_there {α : Type} {s : DState} {st : Store} (hs : Sim s st) {x : Nat} {t u : Tree} (ht : st x = some t)
    {p : List Sel} {m : Nat → M Heap α} {R : Tree → Except Exn α} (hm : Reads m R)
    (he : Tree.editAt p Tree.eTouch t = (t, none)) (hsub : Tree.subAt p t = u) :
    ∃ s', Sim s' st ∧ ask x p m s = match R u with | .ok r => .ok r s' | .error e => .throw e s' := by
  obtain ⟨s', h1, h2⟩ := ask_spec hs ht p hm
  rw [he] at h1 h2
  refine ⟨s', by simpa [Store.set_self ht] using h1, ?_⟩
  rw [h2, hsub]

/-- The document is a dictionary with the key. -/
def hasKey (k : Str) : Tree → Bool
  | .dict ds => (Dict.find k ds).isSome
  | _ => false

/-- The string in a document. -/
def strOf : Tree → Except Exn Val
  | .value (.str s) => .ok (.str s)
  | _ => .error .invalidOperation

/-- The number of elements or entries. -/
def countOf : Tree → Except Exn (BitVec 32)
  | .list ts => .ok (BitVec.ofNat 32 ts.length)
  | .dict ds => .ok (BitVec.ofNat 32 ds.length)
  | _ => .error .invalidOperation

theorem reads_keyExists (k : Str) : Reads (fun b => Datagram.keyExists b k) (fun u => .ok (hasKey k u)) := by
  intro h b u hr
  have h1 := query_rep (fun _ => []) (fun _ _ => []) hr (Nat.le_succ_of_le (Rep.depth_next hr)) (.keyExists k)
  simp only [Query.run, Tree.answer, M.bind_run, Datagram.keyExists, M.pure_run] at h1
  simp only [Datagram.keyExists]
  simp only [Res.ok.injEq, Ans.bool.injEq, and_true] at h1
  rw [h1]
  cases u <;> rfl

theorem reads_getCount : Reads (fun b => Datagram.getCount b) countOf := by
  intro h b u hr
  have h1 := query_rep (fun _ => []) (fun _ _ => []) hr (Nat.le_succ_of_le (Rep.depth_next hr)) .getCount
  simp only [Query.run, Tree.answer, M.bind_run] at h1
  cases hc : Datagram.getCount b h <;> rw [hc] at h1 <;> cases u <;> simp_all [countOf]

theorem reads_getStr : Reads (fun b => Datagram.getVal b .str) strOf := by
  intro h b u hr
  have h1 := query_rep (fun _ => []) (fun _ _ => []) hr (Nat.le_succ_of_le (Rep.depth_next hr)) (.getVal .str)
  simp only [Query.run, Tree.answer, M.bind_run] at h1
  cases u with
  | value v => cases v <;> cases hc : Datagram.getVal b .str h <;> rw [hc] at h1 <;> simp_all [Val.ty, strOf]
  | _ => cases hc : Datagram.getVal b .str h <;> rw [hc] at h1 <;> simp_all [strOf]

end LP.Host
