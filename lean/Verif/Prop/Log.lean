import Verif.Model.Log
/-!
# Log lines (C72)
-/
namespace LP.Log

/-- What a call should print: "[prefix] ", two spaces per level, the message, end of line. -/
def Expected (c : Call) : Str :=
  bs "[" ++ c.pre ++ bs "] " ++ List.replicate (2 * c.level.toNat) 32 ++ c.message ++ bs "\n"

theorem indentLoop_eq (n : Nat) : ∀ acc, indentLoop n acc = acc ++ List.replicate (2 * n) 32 := by
  induction n with
  | zero => intro acc; simp [indentLoop]
  | succ n ih =>
    intro acc
    have : bs "  " = [32, 32] := by decide
    have e : 2 * (n + 1) = (2 * n + 1) + 1 := by omega
    rw [indentLoop, ih, this, e, List.replicate_succ, List.replicate_succ]
    simp

theorem written_eq (c : Call) : written c = Expected c := by
  have : bs "\n" = [10] := by decide
  simp [written, line, Expected, indentLoop_eq, this]

/-- The finished calls: thread and call, in the order of their output. -/
abbrev Done := List (Nat × Call)

/-- The finished calls of one thread. -/
def Done.of (d : Done) (i : Nat) : List Call := (d.filter (fun e => e.1 == i)).map (fun e => e.2)

/-- The output of the finished calls. -/
def Done.text (d : Done) : Str := d.flatMap (fun e => Expected e.2)

/-- The output consists of the finished calls, followed by the beginning of the current one if there is one; the calls of
each thread appear in its order. -/
structure Sound (programs : List (List Call)) (σ : St) (d : Done) : Prop where
  order : ∀ (i : Nat) (p : List Call), programs[i]? = some p → ∃ t : Th, σ.ths[i]? = some t ∧ p = d.of i ++ t.todo
  known : ∀ (i : Nat) (t : Th), σ.ths[i]? = some t → ∃ p, programs[i]? = some p
  inside : ∀ e ∈ d, e.1 < programs.length
  whole : σ.owner = none → σ.out = d.text ∧ ∀ (i : Nat) (t : Th), σ.ths[i]? = some t → t.pc = .outside
  part : ∀ k : Nat, σ.owner = some k → ∃ (t : Th) (c : Call) (rest : List Call) (w b : Str), σ.ths[k]? = some t ∧ t.todo = c :: rest ∧ t.pc = .writing b ∧
    σ.out = d.text ++ w ∧ w ++ b = Expected c ∧ ∀ (i : Nat) (u : Th), i ≠ k → σ.ths[i]? = some u → u.pc = .outside

theorem sound_start (programs : List (List Call)) : Sound programs (start programs) [] where
  order := by intro i p h; exact ⟨⟨p, .outside⟩, by simp [start, h], by simp [Done.of]⟩
  known := by
    intro i t h
    simp only [start, List.getElem?_map, Option.map_eq_some_iff] at h
    obtain ⟨p, hp, _⟩ := h
    exact ⟨p, hp⟩
  inside := by simp
  whole := by
    intro _
    refine ⟨rfl, ?_⟩
    intro i t h
    simp only [start, List.getElem?_map, Option.map_eq_some_iff] at h
    obtain ⟨p, _, rfl⟩ := h
    rfl
  part := by intro k h; cases h

theorem set_get {α : Type} {l : List α} {i : Nat} {a : α} (h : l[i]? = some a) (b : α) (j : Nat) :
    (l.set i b)[j]? = if j = i then some b else l[j]? := by
  by_cases hj : j = i
  · subst hj
    simp [List.getElem?_set_self (List.getElem?_eq_some_iff.1 h).1]
  · rw [List.getElem?_set_ne (Ne.symm hj), if_neg hj]

theorem sound_step {programs : List (List Call)} {σ σ' : St} {d : Done} {i : Nat} (h : Sound programs σ d) (hs : step σ i = some σ') :
    ∃ d', Sound programs σ' d' ∧ (d' = d ∨ ∃ e, d' = d ++ [e]) := by
  unfold step at hs
  split at hs
  · cases hs
  · rename_i t ht
    split at hs
    · rename_i hpc
      split at hs
      · rename_i c cs htodo howner
        cases hs
        refine ⟨d, ?_, .inl rfl⟩
        obtain ⟨w1, w2⟩ := h.whole howner
        refine ⟨?_, ?_, h.inside, ?_, ?_⟩
        · intro j p hp
          obtain ⟨u, hu, e⟩ := h.order j p hp
          rw [set_get ht]
          by_cases hj : j = i
          · subst hj
            rw [ht] at hu; cases hu
            exact ⟨{ t with pc := .writing (written c) }, by rw [if_pos rfl], e⟩
          · exact ⟨u, by rw [if_neg hj]; exact hu, e⟩
        · intro j u hu
          rw [set_get ht] at hu
          by_cases hj : j = i
          · exact h.known j t (by rw [hj]; exact ht)
          · rw [if_neg hj] at hu; exact h.known j u hu
        · intro hn; cases hn
        · intro k hk
          cases hk
          refine ⟨{ t with pc := .writing (written c) }, c, cs, [], written c, ?_, htodo, rfl, by simpa using w1, by simp [written_eq], ?_⟩
          · rw [set_get ht, if_pos rfl]
          · intro j u hj hu
            rw [set_get ht, if_neg hj] at hu
            exact w2 j u hu
      · cases hs
    · rename_i b rest hpc
      cases hs
      refine ⟨d, ?_, .inl rfl⟩
      have hown : σ.owner = some i := by
        cases ho : σ.owner with
        | none => have := (h.whole ho).2 i t ht; rw [hpc] at this; cases this
        | some k =>
          by_cases hk : i = k
          · rw [hk]
          · obtain ⟨_, _, _, _, _, _, _, _, _, _, hall⟩ := h.part k ho
            have := hall i t hk ht
            rw [hpc] at this; cases this
      obtain ⟨u, c, cs, w, b', hu, htodo, hpc', hout, hw, hall⟩ := h.part i hown
      rw [ht] at hu; cases hu
      rw [hpc] at hpc'; cases hpc'
      refine ⟨?_, ?_, h.inside, ?_, ?_⟩
      · intro j p hp
        obtain ⟨u, hu, e⟩ := h.order j p hp
        rw [set_get ht]
        by_cases hj : j = i
        · subst hj
          rw [ht] at hu; cases hu
          exact ⟨{ t with pc := .writing rest }, by rw [if_pos rfl], e⟩
        · exact ⟨u, by rw [if_neg hj]; exact hu, e⟩
      · intro j u hu
        rw [set_get ht] at hu
        by_cases hj : j = i
        · exact h.known j t (by rw [hj]; exact ht)
        · rw [if_neg hj] at hu; exact h.known j u hu
      · intro hn; simp only at hn; rw [hown] at hn; cases hn
      · intro k hk
        simp only at hk
        rw [hown] at hk
        cases hk
        refine ⟨{ t with pc := .writing rest }, c, cs, w ++ [b], rest, ?_, htodo, rfl, by simp [hout], by simpa using hw, ?_⟩
        · rw [set_get ht, if_pos rfl]
        · intro j u hj hu
          rw [set_get ht, if_neg hj] at hu
          exact hall j u hj hu
    · rename_i hpc
      cases hs
      have hown : σ.owner = some i := by
        cases ho : σ.owner with
        | none => have := (h.whole ho).2 i t ht; rw [hpc] at this; cases this
        | some k =>
          by_cases hk : i = k
          · rw [hk]
          · obtain ⟨_, _, _, _, _, _, _, _, _, _, hall⟩ := h.part k ho
            have := hall i t hk ht
            rw [hpc] at this; cases this
      obtain ⟨u, c, cs, w, b', hu, htodo, hpc', hout, hw, hall⟩ := h.part i hown
      rw [ht] at hu; cases hu
      rw [hpc] at hpc'; cases hpc'
      refine ⟨d ++ [(i, c)], ?_, .inr ⟨_, rfl⟩⟩
      refine ⟨?_, ?_, ?_, ?_, ?_⟩
      · intro j p hp
        obtain ⟨u, hu, e⟩ := h.order j p hp
        rw [set_get ht]
        by_cases hj : j = i
        · subst hj
          rw [ht] at hu; cases hu
          refine ⟨_, by rw [if_pos rfl], ?_⟩
          rw [e, htodo]
          simp [Done.of]
        · refine ⟨u, by rw [if_neg hj]; exact hu, ?_⟩
          rw [e]
          simp [Done.of, Ne.symm hj]
      · intro j u hu
        rw [set_get ht] at hu
        by_cases hj : j = i
        · exact h.known j t (by rw [hj]; exact ht)
        · rw [if_neg hj] at hu; exact h.known j u hu
      · intro e he
        rcases List.mem_append.1 he with he | he
        · exact h.inside e he
        · simp at he; subst he
          obtain ⟨p, hp⟩ := h.known i t ht
          exact (List.getElem?_eq_some_iff.1 hp).1
      · intro _
        refine ⟨?_, ?_⟩
        · simp only [List.append_nil] at hw
          rw [hout, hw]; simp [Done.text]
        · intro j u hu
          rw [set_get ht] at hu
          by_cases hj : j = i
          · rw [if_pos hj] at hu; cases hu; rfl
          · rw [if_neg hj] at hu; exact hall j u hj hu
      · intro k hk; cases hk

theorem sound_exec {programs : List (List Call)} (is : List Nat) : ∀ {σ σ' : St} {d : Done}, Sound programs σ d → exec σ is = some σ' →
    ∃ d', Sound programs σ' d' ∧ ∃ l, d' = d ++ l := by
  induction is with
  | nil => intro σ σ' d h he; cases he; exact ⟨d, h, [], by simp⟩
  | cons i is ih =>
    intro σ σ' d h he
    unfold exec at he
    cases hs : step σ i with
    | none => simp [hs] at he
    | some τ =>
      simp only [hs, Option.bind_some] at he
      obtain ⟨d', h', e⟩ := sound_step h hs
      obtain ⟨d'', h'', l, e'⟩ := ih h' he
      refine ⟨d'', h'', ?_⟩
      rcases e with rfl | ⟨x, rfl⟩
      · exact ⟨l, e'⟩
      · exact ⟨x :: l, by simp [e']⟩

/-- At any moment of any schedule of any number of threads: the output is a sequence of complete lines, followed by a
beginning of one further line if a thread is writing at that moment; the lines of a thread are those of its calls, in
its order. -/
theorem C72_lines_not_interleaved (programs : List (List Call)) (is : List Nat) (σ : St)
    (h : exec (start programs) is = some σ) :
    ∃ d : Done, (∀ (i : Nat) (p : List Call), programs[i]? = some p → d.of i <+: p) ∧ (∀ e ∈ d, e.1 < programs.length) ∧
      ((σ.owner = none ∧ σ.out = d.text) ∨
       ∃ k c w, σ.owner = some k ∧ (∃ p, programs[k]? = some p ∧ d.of k ++ [c] <+: p) ∧ w <+: Expected c ∧ σ.out = d.text ++ w) := by
  obtain ⟨d, hd, _⟩ := sound_exec is (sound_start programs) h
  refine ⟨d, ?_, hd.inside, ?_⟩
  · intro i p hp
    obtain ⟨t, _, e⟩ := hd.order i p hp
    exact ⟨_, e.symm⟩
  · cases ho : σ.owner with
    | none => exact .inl ⟨rfl, (hd.whole ho).1⟩
    | some k =>
      obtain ⟨t, c, rest, w, b, ht, htodo, _, hout, hw, _⟩ := hd.part k ho
      obtain ⟨p, hp⟩ := hd.known k t ht
      obtain ⟨t', ht', e⟩ := hd.order k p hp
      rw [ht] at ht'; cases ht'
      exact .inr ⟨k, c, w, rfl, ⟨p, hp, ⟨rest, by rw [e, htodo]; simp⟩⟩, ⟨b, hw⟩, hout⟩

/-- When all threads have finished, the output is exactly all lines of all calls, each once, in an order that respects
the order of each thread. -/
theorem C72_complete_output (programs : List (List Call)) (is : List Nat) (σ : St) (h : exec (start programs) is = some σ)
    (hfin : ∀ (i : Nat) (t : Th), σ.ths[i]? = some t → t.todo = []) :
    ∃ d : Done, σ.out = d.text ∧ (∀ (i : Nat) (p : List Call), programs[i]? = some p → d.of i = p) ∧ ∀ e ∈ d, e.1 < programs.length := by
  obtain ⟨d, hd, _⟩ := sound_exec is (sound_start programs) h
  refine ⟨d, ?_, ?_, hd.inside⟩
  · cases ho : σ.owner with
    | none => exact (hd.whole ho).1
    | some k =>
      obtain ⟨t, c, rest, w, b, ht, htodo, _⟩ := hd.part k ho
      rw [hfin k t ht] at htodo; cases htodo
  · intro i p hp
    obtain ⟨t, ht, e⟩ := hd.order i p hp
    rw [e, hfin i t ht]; simp

/-- Nobody is stuck: as long as a thread has something left to log, some thread can go on. -/
theorem C72_progress (programs : List (List Call)) (is : List Nat) (σ : St) (h : exec (start programs) is = some σ)
    (i : Nat) (t : Th) (ht : σ.ths[i]? = some t) (hn : t.todo ≠ []) : ∃ k σ', step σ k = some σ' := by
  obtain ⟨d, hd, _⟩ := sound_exec is (sound_start programs) h
  cases ho : σ.owner with
  | none =>
    have := (hd.whole ho).2 i t ht
    cases hc : t.todo with
    | nil => exact absurd hc hn
    | cons c cs => exact ⟨i, _, by simp only [step, ht, this, hc, ho]; rfl⟩
  | some k =>
    obtain ⟨u, c, rest, w, b, hu, _, hpc, _⟩ := hd.part k ho
    cases b with
    | nil => exact ⟨k, _, by simp only [step, hu, hpc]; rfl⟩
    | cons x b => exact ⟨k, _, by simp only [step, hu, hpc]; rfl⟩

/-- Two threads taking turns. -/
example : ∃ σ, exec (start [[⟨bs "a", bs "x", 1⟩], [⟨bs "b", bs "y", -3⟩]])
      (1 :: (List.replicate 7 1) ++ (0 :: List.replicate 9 0)) = some σ ∧
    σ.out = bs "[b] y\n[a]   x\n" ∧ σ.ths.map (fun t => t.todo) = [[], []] := by
  refine ⟨_, rfl, ?_, ?_⟩ <;> decide +kernel

example : Expected ⟨bs "a", bs "x", 2⟩ = bs "[a]     x\n" := by decide

end LP.Log
