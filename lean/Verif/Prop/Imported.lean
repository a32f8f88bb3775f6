import Verif.Prop.Wire
import Verif.Model.JsonLib
import Verif.Spec.Imported
/-!
# Properties C19 (what is imported survives a message) and C139 (json-c is never given anything back)
-/
namespace LP

theorem JsonMeans.lossy {j : Json} {t : Tree} (h : JsonMeans j t) : Lossy t → JsonNaN j := by
  induction h with
  | double d => intro h; cases h with | nan h => exact .here h
  | @array js ts hne hl _ ih =>
    intro h
    cases h with
    | emptyList => exact absurd (List.length_eq_zero_iff.mp hl) hne
    | list hm h =>
      obtain ⟨i, hi, rfl⟩ := List.mem_iff_getElem.mp hm
      have hj : i < js.length := by omega
      exact .array (List.getElem_mem hj) (ih i _ _ (List.getElem?_eq_getElem hj) (List.getElem?_eq_getElem hi) h)
  | @object ms ns ds hne hl hkeys _ hpw hlast ih =>
    intro h
    cases h with
    | emptyDict =>
      have hns : ns ≠ [] := by intro e; subst e; exact hne (List.length_eq_zero_iff.mp hl)
      have := (hlast (ns.getLast hns)).mpr ⟨ns.dropLast, [], (List.dropLast_concat_getLast hns).symm, by simp⟩
      simp at this
    | @dict k t _ hm h =>
      obtain ⟨l1, l2, he, _⟩ := (hlast (k, t)).mp hm
      have hmem : (k, t) ∈ ns := by rw [he]; simp
      obtain ⟨i, hi, he⟩ := List.mem_iff_getElem.mp hmem
      have hj : i < ms.length := by omega
      have := ih i _ _ (List.getElem?_eq_getElem hj) (List.getElem?_eq_getElem hi)
      rw [he] at this
      exact .object (k := ms[i].1) (j := ms[i].2) (List.getElem_mem hj) (this h)
  | _ => exact nofun

/-- A document imported from JSON without a NaN survives a message: what is received compares equal to it, either way
around. -/
theorem C19_survives (s : DState) (tok : Str → Option Json) (text : Str) {x y : Nat} (hxy : x ≠ y)
    (hn : ∀ j, tok text = some j → ¬ JsonNaN j) :
    ∃ s' f s'', Cmd.run (.json x tok text) s = .ok () s' ∧ observeWire s' x = some f ∧ Cmd.run (.receive y f) s' = .ok () s'' ∧
      observeEq s'' x y = some true ∧ observeEq s'' y x = some true := by
  obtain ⟨t, s', h1, h2, h3, _⟩ := json_run s x tok text
  have hl : ¬ Lossy t := by
    cases hj : tok text with
    | none => rw [hj] at h1; simp only at h1; subst h1; nofun
    | some j => rw [hj] at h1; exact fun h => hn j hj (JsonMeans.lossy h1 h)
  obtain ⟨f, s'', e1, e2, e3, e4, _⟩ := C14_equal_iff h3 hxy
  exact ⟨s', f, s'', h2, e1, e2, e3.mpr hl, e4.mpr hl⟩

/-! ## C139 -/

open JsonLib

theorem JsonLib.import_run (tok : Str → Option Json) (text : Str) (s : State) :
    ∃ a h l, Datagram.deserializeJson tok text s.heap = .ok a h ∧ importJson tok text s = .ok a ⟨h, l⟩ ∧
      l.next = s.lib.next + taken tok text ∧ (∀ p, p < s.lib.next → l.live p = s.lib.live p) ∧
      ∀ p, s.lib.next ≤ p → p < l.next → l.live p ≠ none := by
  obtain ⟨t, _, hb⟩ := json_spec tok text
  obtain ⟨a, h', h1, _⟩ := hb s.heap
  refine ⟨a, h', ?_⟩
  simp only [Datagram.deserializeJson, bind, M.bind, Heap.alloc] at h1
  cases hj : tok text with
  | none =>
    simp only [hj, M.pure_run] at h1
    refine ⟨s.lib.take .tokener, ?_, ?_, ?_, ?_, ?_⟩
    · simp only [Datagram.deserializeJson, bind, M.bind, Heap.alloc, hj, M.pure_run]; exact h1
    · cases h1
      simp [importJson, onHeap, tokenerNew, parseEx, Heap.alloc, Lib.take, hj]
    · simp [Lib.take, taken, hj]
    · intro p hp; simp [Lib.take, Nat.ne_of_lt hp]
    · intro p h1 h2; simp only [Lib.take] at h2 ⊢; have : p = s.lib.next := by omega
      simp [this]
  | some j =>
    simp only [hj] at h1
    have hd : Datagram.deserializeJson tok text s.heap = .ok a h' := by
      simp only [Datagram.deserializeJson, bind, M.bind, Heap.alloc, hj]; exact h1
    simp only [M.bind_run'] at h1
    have hp : Heap.parseJson j.depth j s.heap.next { next := s.heap.next + 1, node := (s.heap.put s.heap.next Node.empty).node } =
        .ok () h' ∧ a = s.heap.next := by
      split at h1 <;> simp_all
    obtain ⟨hp, rfl⟩ := hp
    by_cases hnull : j = .null
    · subst hnull
      refine ⟨s.lib.take .tokener, hd, ?_, ?_, ?_, ?_⟩
      · simp only [importJson, onHeap, tokenerNew, parseEx, document, Heap.alloc, Lib.take, hj, M.bind_run, if_true, hp, M.pure_run]
      · simp [Lib.take, taken, hj]
      · intro p hp; simp [Lib.take, Nat.ne_of_lt hp]
      · intro p h1 h2; simp only [Lib.take] at h2 ⊢; have : p = s.lib.next := by omega
        simp [this]
    · refine ⟨(s.lib.take .tokener).take (.object j), hd, ?_, ?_, ?_, ?_⟩
      · cases j <;> first
          | exact absurd rfl hnull
          | (simp only [importJson, onHeap, tokenerNew, parseEx, document, Heap.alloc, Lib.take, hj, M.bind_run, if_true, hp, M.pure_run]; rfl)
      · cases j <;> first | exact absurd rfl hnull | simp [Lib.take, taken, hj]
      · intro p hp
        have h1 : p ≠ s.lib.next := by omega
        have h2 : p ≠ s.lib.next + 1 := by omega
        simp [Lib.take, h1, h2]
      · intro p h1 h2
        simp only [Lib.take] at h2 ⊢
        by_cases h3 : p = s.lib.next + 1
        · simp [h3]
        · have : p = s.lib.next := by omega
          simp [this]

/-- With the memory of json-c in the picture an import never uses anything the library does not have any more, and
yields the datagram it yields without. -/
theorem C139_same_datagram (tok : Str → Option Json) (text : Str) (s : State) :
    ∃ a h l, Datagram.deserializeJson tok text s.heap = .ok a h ∧ importJson tok text s = .ok a ⟨h, l⟩ := by
  obtain ⟨a, h, l, h1, h2, _⟩ := import_run tok text s
  exact ⟨a, h, l, h1, h2⟩

/-- Whatever is imported and whatever happens to the datagrams in between: json-c has handed out one or two blocks for
each import, and every one of them is still there at the end. -/
theorem C139_never_released (tok : Str → Option Json) : ∀ (work : List (Str × (Heap → Heap))) (s : State),
    ∃ s', imports tok work s = .ok () s' ∧
      s'.lib.next = s.lib.next + (work.map fun w => taken tok w.1).sum ∧ s.lib.next + work.length ≤ s'.lib.next ∧
      (∀ p, p < s.lib.next → s'.lib.live p = s.lib.live p) ∧
      ∀ p, s.lib.next ≤ p → p < s'.lib.next → s'.lib.live p ≠ none
  | [], s => ⟨s, rfl, by simp, by simp, fun _ _ => rfl, fun p h1 h2 => absurd h2 (by omega)⟩
  | (text, f) :: rest, s => by
    obtain ⟨a, h, l, _, h2, h3, h4, h5⟩ := import_run tok text s
    obtain ⟨s', e1, e2, e3, e4, e5⟩ := C139_never_released tok rest ⟨f h, l⟩
    have ht : 1 ≤ taken tok text := by unfold taken; split <;> omega
    refine ⟨s', ?_, ?_, ?_, ?_, ?_⟩
    · simp only [imports, M.bind_run, h2, M.modify]; exact e1
    · simp only [List.map_cons, List.sum_cons]; simp only at e2; omega
    · simp only [List.length_cons]; simp only at e3; omega
    · intro p hp; simp only at e4; rw [e4 p (by omega), h4 p hp]
    · intro p hp hp'
      by_cases hl : p < l.next
      · rw [e4 p hl]; exact h5 p hp hl
      · exact e5 p (by simp only; omega) hp'

/-! ## Cases that meet the hypotheses -/
namespace Ex

/-- `1` is a text with a document, `2` is the word `null`, everything else is not JSON. -/
def someTok : Str → Option Json := fun s =>
  if s = [1] then some (.object [([97], .array [.int 7, .double 0x8000000000000000]), ([98], .array [])])
  else if s = [2] then some .null else none

/-- The document has no NaN, although a negative zero and an empty array. -/
example : ∀ j, someTok [1] = some j → ¬ JsonNaN j := by
  intro j hj
  simp only [someTok, if_true, Option.some.injEq] at hj
  subst hj
  intro h
  cases h with
  | object hm h =>
    simp only [List.mem_cons, Prod.mk.injEq, List.not_mem_nil, or_false] at hm
    rcases hm with ⟨_, rfl⟩ | ⟨_, rfl⟩
    · cases h with
      | array hm h =>
        simp only [List.mem_cons, List.not_mem_nil, or_false] at hm
        rcases hm with rfl | rfl
        · cases h
        · cases h with | here h => exact absurd h (by decide +kernel)
    · cases h with | array hm _ => cases hm

/-- Five blocks for four imports, none of them released. -/
example : ([[1], [2], [1, 1], []].map (taken someTok)).sum = 5 := by decide +kernel

end Ex
end LP
