import Verif.Lemma.Sim
import Verif.Spec.Read
/-! Reading calls return what the document says. -/
namespace LP
open Heap Tree

theorem Rep.node_ty {h : Heap} {S : Addr → Prop} {t : Tree} {a : Nat} (ht : Rep h S t a) : (h.node a).ty = t.kind := by
  cases t with
  | empty => simp only [Rep] at ht; simp [ht.2, kind]
  | value v => simp only [Rep] at ht; simp [ht.2, kind]
  | list ts => obtain ⟨_, _, hn, _⟩ := ht; simp [hn, kind]
  | dict ds => obtain ⟨_, _, hn, _, _⟩ := ht; simp [hn, kind]

theorem splitSlash_ne (p : Str) : splitSlash p ≠ [] := by
  cases p with
  | nil => simp [splitSlash]
  | cons c p => simp only [splitSlash]; split
                · simp
                · split <;> simp

theorem splitSlash_append {tok : Str} (ht : slash ∉ tok) (r : Str) : splitSlash (tok ++ slash :: r) = tok :: splitSlash r := by
  induction tok with
  | nil => simp [splitSlash]
  | cons c t ih =>
    simp only [List.mem_cons, not_or] at ht
    simp only [List.cons_append, splitSlash, Ne.symm ht.1, if_false, ih ht.2]

theorem splitSlash_none {tok : Str} (ht : slash ∉ tok) : splitSlash tok = [tok] := by
  induction tok with
  | nil => simp [splitSlash]
  | cons c t ih =>
    simp only [List.mem_cons, not_or] at ht
    simp only [splitSlash, Ne.symm ht.1, if_false, ih ht.2]

theorem components_nil : components [] = [] := rfl

theorem components_none {tok : Str} (ht : slash ∉ tok) (hne : tok ≠ []) : components tok = [tok] := by
  simp [components, splitSlash_none ht, hne]

theorem components_cons {tok : Str} (ht : slash ∉ tok) (r : Str) : components (tok ++ slash :: r) = tok :: components r := by
  simp only [components, splitSlash_append ht]
  have hne := splitSlash_ne r
  rw [List.getLast?_cons, List.dropLast_cons_of_ne_nil hne]
  obtain ⟨x, hx⟩ := Option.isSome_iff_exists.mp (List.getLast?_isSome.mpr hne)
  rw [hx]
  simp only [Option.getD_some]
  split <;> rfl

theorem Str.find_none {c : UInt8} {p : Str} (h : Str.find c p = none) : c ∉ p := by
  induction p with
  | nil => simp
  | cons x p ih =>
    simp only [Str.find] at h
    split at h
    · simp at h
    · rename_i hx; simp only [Option.map_eq_none_iff] at h
      simp only [List.mem_cons, not_or]; exact ⟨Ne.symm hx, ih h⟩

theorem Str.find_some {c : UInt8} {p : Str} {i : Nat} (h : Str.find c p = some i) :
    ∃ tok r, p = tok ++ c :: r ∧ tok.length = i ∧ c ∉ tok := by
  induction p generalizing i with
  | nil => simp [Str.find] at h
  | cons x p ih =>
    simp only [Str.find] at h
    split at h
    · rename_i hx; subst hx; simp at h; subst h; exact ⟨[], p, rfl, rfl, by simp⟩
    · rename_i hx
      rw [Option.map_eq_some_iff] at h
      obtain ⟨j, hj, rfl⟩ := h
      obtain ⟨tok, r, rfl, h2, h3⟩ := ih hj
      exact ⟨x :: tok, r, rfl, by simp [h2], by simp [h3, Ne.symm hx]⟩

/-- The code's path cutting agrees with the components. -/
theorem cutPath_components {p : Str} (hp : p ≠ []) :
    components p = (cutPath p).1 :: components (cutPath p).2 ∧ (cutPath p).2.length < p.length := by
  unfold cutPath
  cases hf : Str.find slash p with
  | none => simp only; exact ⟨components_none (Str.find_none hf) hp, by
      cases p with
      | nil => exact absurd rfl hp
      | cons => simp⟩
  | some i =>
    obtain ⟨tok, r, rfl, hl, hno⟩ := Str.find_some hf
    simp only
    have h1 : (tok ++ slash :: r).substr0 i = tok := by simp [Str.substr0, ← hl]
    have h2 : (if (tok ++ slash :: r).length > i + 1 then (tok ++ slash :: r).drop (i + 1) else []) = r := by
      cases r with
      | nil => simp [← hl]
      | cons x r => rw [if_pos (by simp [← hl])]; simp [← hl, List.drop_append]
    rw [h1, h2]
    exact ⟨components_cons hno r, by simp; omega⟩

theorem pathGet_rep {h : Heap} {S : Addr → Prop} (ty : VTy) (dflt : Val) : ∀ (n : Nat) (p : Str) (a : Nat) (t : Tree),
    p.length < n → Rep h S t a → Heap.pathGet ty dflt n p a h = .ok ((t.valueAt ty (components p)).getD dflt) h := by
  intro n
  induction n with
  | zero => intro p a t h1; omega
  | succ n ih =>
    intro p a t hlen ht
    simp only [Heap.pathGet, M.bind_run, M.get_run]
    by_cases hp : p = []
    · subst hp
      simp only [List.isEmpty_nil, if_true, components_nil, valueAt, walk]
      cases t with
      | empty => simp only [Rep] at ht; simp [ht.2, Node.isOfType]
      | list ts => obtain ⟨_, _, hn, _⟩ := ht; simp [hn, Node.isOfType]
      | dict ds => obtain ⟨_, _, hn, _, _⟩ := ht; simp [hn, Node.isOfType]
      | value v =>
        simp only [Rep] at ht
        by_cases hv : v.ty = ty
        · have : on a (Node.getVal ty) h = .ok v h := by
            simp only [on, Node.getVal, ht.2, hv, if_true]; rw [← ht.2, put_self]
          simp [ht.2, Node.isOfType, hv, this]
        · simp [ht.2, Node.isOfType, hv]
    · have hpe : p.isEmpty = false := by cases p <;> simp_all
      obtain ⟨hc, hl⟩ := cutPath_components hp
      rw [hc]
      simp only [hpe, Bool.false_eq_true, if_false]
      cases t with
      | empty => simp only [Rep] at ht; simp [ht.2, valueAt, walk]
      | value v => simp only [Rep] at ht; simp [ht.2, valueAt, walk]
      | list ts => obtain ⟨_, _, hn, _⟩ := ht; simp [hn, valueAt, walk]
      | dict ds =>
        obtain ⟨_, d, hn, _, hr⟩ := ht
        simp only [hn, if_true]
        cases hf : Dict.find (cutPath p).1 ds with
        | none => simp [hr.find_none hf, valueAt, walk, hf]
        | some u =>
          obtain ⟨b, hb, hrb⟩ := hr.find_some hf
          have := ih (cutPath p).2 b u (by omega) hrb
          simp only [hb, M.bind_run, deref_some, this, valueAt, walk, hf]

theorem commaSep_eq : ∀ xs : List Str, commaSep xs = joinComma xs
  | [] => rfl
  | [x] => rfl
  | x :: y :: r => by
    have := commaSep_eq (y :: r)
    have hb : bs ", " = [44, 32] := by decide
    simp only [commaSep, joinComma, this, hb]

theorem print_val (pd : Dbl → Str) (po : Nat → Nat → Str) (v : Val) : v.print pd po = text pd po (.value v) := by
  cases v <;> simp [Val.print, text]

theorem mapM_rep {α : Type} {h : Heap} (f : α → M Heap Str) (xs : List α) (ys : List Str) (hl : xs.length = ys.length)
    (hf : ∀ i (h1 : i < xs.length) (h2 : i < ys.length), f xs[i] h = .ok ys[i] h) : mapM' f xs h = .ok ys h := by
  induction xs generalizing ys with
  | nil => cases ys <;> simp_all [mapM']
  | cons x xs ih =>
    cases ys with
    | nil => simp at hl
    | cons y ys =>
      have h0 := hf 0 (by simp) (by simp)
      simp only [List.getElem_cons_zero] at h0
      have h1 := ih ys (by simpa using hl) (fun i h1 h2 => by
        have := hf (i + 1) (by simp; omega) (by simp; omega)
        simpa using this)
      simp only [mapM', M.bind_run, h0, h1, M.pure_run]

theorem textL_eq (pd : Dbl → Str) (po : Nat → Nat → Str) (ts : List Tree) : textL pd po ts = ts.map (text pd po) := by
  induction ts with
  | nil => rfl
  | cons t ts ih => simp [textL, ih]

theorem textD_eq (pd : Dbl → Str) (po : Nat → Nat → Str) (ds : List (Str × Tree)) :
    textD pd po ds = ds.map (fun e => e.1 ++ [58, 32] ++ text pd po e.2) := by
  induction ds with
  | nil => rfl
  | cons t ts ih => obtain ⟨k, u⟩ := t; simp [textD, ih]

theorem print_rep {h : Heap} {S : Addr → Prop} (pd : Dbl → Str) (po : Nat → Nat → Str) : ∀ (t : Tree) (n : Nat) (a : Nat),
    t.depth ≤ n → Rep h S t a → Heap.print pd po n a h = .ok (text pd po t) h := by
  intro t
  induction t using Tree.ind with
  | empty =>
    intro n a hd ht
    obtain ⟨m, rfl⟩ : ∃ m, n = m + 1 := ⟨n - 1, by simp [depth] at hd; omega⟩
    simp only [Rep] at ht
    simp only [Heap.print, M.bind_run, M.get_run, ht.2, M.pure_run, text]
    have : bs "null" = [110, 117, 108, 108] := by decide
    rw [this]
  | value v =>
    intro n a hd ht
    obtain ⟨m, rfl⟩ : ∃ m, n = m + 1 := ⟨n - 1, by simp [depth] at hd; omega⟩
    simp only [Rep] at ht
    simp only [Heap.print, M.bind_run, M.get_run, ht.2, M.pure_run, print_val]
  | list ts ih =>
    intro n a hd ht
    obtain ⟨m, rfl⟩ : ∃ m, n = m + 1 := ⟨n - 1, by simp [depth] at hd; omega⟩
    obtain ⟨_, ps, hn, hr⟩ := ht
    rw [RepL_iff] at hr
    have hmap : mapM' (fun (p : Ptr) => do let b ← deref p; Heap.print pd po m b) ps h = .ok (textL pd po ts) h := by
      refine mapM_rep _ _ _ (by rw [textL_eq]; simp [hr.1]) ?_
      intro i h1 h2
      obtain ⟨b, hb, hrb⟩ := hr.2 i (by omega) h1
      have hmem : ts[i]'(by omega) ∈ ts := List.getElem_mem _
      have hdep := depth_mem_list hmem
      simp only [depth] at hd
      have := ih _ hmem m b (by omega) hrb
      simp only [hb, M.bind_run, deref_some, this, textL_eq, List.getElem_map]
    simp only [Heap.print, M.bind_run, M.get_run, hn, hmap, M.pure_run, text, commaSep_eq]
    have h1 : bs "[" = [91] := by decide
    have h2 : bs "]" = [93] := by decide
    rw [h1, h2]
  | dict ds ih =>
    intro n a hd ht
    obtain ⟨m, rfl⟩ : ∃ m, n = m + 1 := ⟨n - 1, by simp [depth] at hd; omega⟩
    obtain ⟨_, d, hn, _, hr⟩ := ht
    rw [RepD_iff, RepL_iff] at hr
    obtain ⟨hk, hlen, hr⟩ := hr
    simp only [List.length_map] at hlen hr
    have hmap : mapM' (fun (kp : Str × Ptr) => do
        let b ← deref kp.2
        let s ← Heap.print pd po m b
        pure (kp.1 ++ bs ": " ++ s)) d h = .ok (textD pd po ds) h := by
      refine mapM_rep _ _ _ (by rw [textD_eq]; simp [hlen]) ?_
      intro i h1 h2
      obtain ⟨b, hb, hrb⟩ := hr i (by omega) h1
      simp only [List.getElem_map] at hb hrb
      have hmem : ds[i]'(by omega) ∈ ds := List.getElem_mem _
      have hdep := depth_mem_dict hmem
      simp only [depth] at hd
      have hp := ih _ hmem m b (by omega) hrb
      have hkey : d[i].1 = (ds[i]'(by omega)).1 := by
        have : (d.map Prod.fst)[i]? = (ds.map Prod.fst)[i]? := by rw [hk]
        simpa [List.getElem?_eq_getElem h1, List.getElem?_eq_getElem (show i < ds.length by omega)] using this
      have hc : bs ": " = [58, 32] := by decide
      simp only [hb, M.bind_run, deref_some, hp, textD_eq, List.getElem_map, M.pure_run, hkey, hc]
    simp only [Heap.print, M.bind_run, M.get_run, hn, hmap, M.pure_run, text, commaSep_eq]
    have h1 : bs "{" = [123] := by decide
    have h2 : bs "}" = [125] := by decide
    rw [h1, h2]

theorem query_rep {h : Heap} {S : Addr → Prop} (pd : Dbl → Str) (po : Nat → Nat → Str) {t : Tree} {a : Nat} (ht : Rep h S t a)
    (hd : t.depth ≤ h.next + 1) (q : Query) :
    q.run pd po a h = match t.answer pd po q with | .ok r => .ok r h | .error e => .throw e h := by
  cases q with
  | getType => simp [Query.run, Datagram.getType, ht.node_ty, answer]
  | isEmpty => cases t <;> simp [Query.run, Datagram.isEmpty, ht.node_ty, answer, kind]
  | keyExists k =>
    obtain ⟨d, hd, _, _, hr⟩ := Rep.asDict ht
    simp only [Query.run, M.bind_run, Datagram.keyExists, Node.keyExists, hd, M.pure_run, answer, Dict.has]
    have : (Dict.find k d).isSome = (Dict.find k t.asDict).isSome := by
      cases hf : Dict.find k t.asDict with
      | none => rw [hr.find_none hf]; rfl
      | some u => obtain ⟨b, hb, _⟩ := hr.find_some hf; rw [hb]; rfl
    rw [this]; cases t <;> simp [asDict]
  | getCount =>
    have hlen : ∀ ts ps, RepL h S ts ps → ps.length = ts.length := fun ts ps h => (RepL_iff.mp h).1
    cases t with
    | empty => simp only [Rep] at ht; simp only [Query.run, M.bind_run, Datagram.getCount, on, Node.getCount, ht.2, answer]; rw [← ht.2, put_self]
    | value v => simp only [Rep] at ht; simp only [Query.run, M.bind_run, Datagram.getCount, on, Node.getCount, ht.2, answer]; rw [← ht.2, put_self]
    | list ts =>
      obtain ⟨_, ps, hn, hr⟩ := ht
      simp only [Query.run, M.bind_run, Datagram.getCount, on, Node.getCount, hn, answer, hlen _ _ hr, M.pure_run]; rw [← hn, put_self]
    | dict ds =>
      obtain ⟨_, d, hn, _, hr⟩ := ht
      have := hlen _ _ (RepD_iff.mp hr).2
      simp only [List.length_map] at this
      simp only [Query.run, M.bind_run, Datagram.getCount, on, Node.getCount, hn, answer, this, M.pure_run]; rw [← hn, put_self]
  | getVal ty =>
    cases t with
    | empty => simp only [Rep] at ht; simp only [Query.run, M.bind_run, Datagram.getVal, on, Node.getVal, ht.2, answer]; rw [← ht.2, put_self]
    | list ts => obtain ⟨_, ps, hn, hr⟩ := ht; simp only [Query.run, M.bind_run, Datagram.getVal, on, Node.getVal, hn, answer]; rw [← hn, put_self]
    | dict ds => obtain ⟨_, ps, hn, hr⟩ := ht; simp only [Query.run, M.bind_run, Datagram.getVal, on, Node.getVal, hn, answer]; rw [← hn, put_self]
    | value v =>
      simp only [Rep] at ht
      by_cases hv : v.ty = ty
      · simp only [Query.run, M.bind_run, Datagram.getVal, on, Node.getVal, ht.2, answer, hv, if_true, M.pure_run]; rw [← ht.2, put_self]
      · simp only [Query.run, M.bind_run, Datagram.getVal, on, Node.getVal, ht.2, answer, hv, if_false]; rw [← ht.2, put_self]
  | getPath ty path dflt =>
    simp only [Query.run, M.bind_run, Datagram.pathGet, pathGet_rep ty dflt _ path a t (Nat.lt_succ_self _) ht, M.pure_run, answer]
  | print =>
    simp only [Query.run, M.bind_run, M.get_run, print_rep pd po t _ a hd ht, M.pure_run, answer]

theorem steps_sim : ∀ (prog : List Stmt) {s : DState} {st : Store}, Sim s st →
    ∃ s', Stmt.runAll prog s = some (s', (st.steps prog).2) ∧ Sim s' (st.steps prog).1 := by
  intro prog
  induction prog with
  | nil => intro s st hs; exact ⟨s, rfl, hs⟩
  | cons c cs ih =>
    intro s st hs
    obtain ⟨s1, hr, hs1⟩ := hs.step c
    obtain ⟨s2, hr2, hs2⟩ := ih hs1
    refine ⟨s2, ?_, hs2⟩
    simp only [Stmt.runAll, hr, Store.steps]
    cases (st.step c).2 <;> simp [hr2]

end LP
