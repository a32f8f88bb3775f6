import Verif.Lemma.Exceptions
import Verif.Model.Bus
import Verif.Model.LampPost
import Verif.Model.Action
/-!
# C117: exceptions tell the truth
-/
namespace LP
open Tree

/-! ## Datagrams -/

/-- Whatever a statement throws, in any state of any program, is a true description of what is wrong with it: the class
fits, and the key or index is the one that is missing. -/
theorem C117_exception_is_true {s s' : DState} (hs : Reachable s) {c : Stmt} {e : Exn} (h : c.run s = .throw e s') :
    Reason s c e := by
  have inv := hs.inv
  have ht := stmt_throws inv c
  cases hch : c.chain with
  | none => exact absurd h (ht.1 hch e s')
  | some yp =>
    obtain ⟨y, p⟩ := yp
    obtain ⟨h1, h2⟩ := ht.2 y p hch
    by_cases hu : ∀ x ∈ c.uses, s.env x ≠ none
    · obtain ⟨t, hh, hiff⟩ := h2 hu
      rcases (editAt_fails _ e p t).1 ((hiff e).1 ⟨s', h⟩) with ⟨p1, i, r, rfl, a1, a2, rfl⟩ | ⟨a1, a2⟩
      · exact .noElement hch (noElement_of inv hh a1 a2) rfl rfl
      · cases c <;> simp only [Stmt.edit?, Option.map_some, Option.map_none, Option.getD_some, Option.getD_none, eTouch, eSet, eAdd, reduceCtorEq] at a2 <;>
          simp only [Stmt.chain, Option.some.injEq, Prod.mk.injEq] at hch <;> obtain ⟨rfl, rfl⟩ := hch
        case removeKey x p k =>
          have hty := (sees_type inv hh p (subAt p t).kind).2 ⟨a1, rfl⟩
          cases hk : subAt p t with
          | dict ds =>
            simp only [hk, eRemoveKey] at a2
            split at a2 <;> simp only [reduceCtorEq, Option.some.injEq] at a2
            rename_i hn
            subst a2
            refine .noKeyToRemove (by simpa [hk, kind] using hty) ((sees_iff inv hh p _ _).2 ⟨a1, fun pd po => ?_⟩) rfl rfl
            simp only [hk, answer, Except.ok.injEq, Ans.bool.injEq]
            simpa using hn
          | _ =>
            simp only [hk, eRemoveKey, Option.some.injEq] at a2
            subst a2
            exact .notADictionary hty (by simp [hk, kind]) rfl
        case removeIdx x p i =>
          have hty := (sees_type inv hh p (subAt p t).kind).2 ⟨a1, rfl⟩
          cases hk : subAt p t with
          | list ts =>
            simp only [hk, eRemoveIdx] at a2
            split at a2 <;> simp only [reduceCtorEq, Option.some.injEq] at a2
            rename_i hn
            subst a2
            refine .noElementToRemove (by simpa [hk, kind] using hty) (noElement_of inv hh a1 ?_) rfl rfl
            simp only [hk, asList, List.getElem?_eq_none_iff]; omega
          | _ =>
            simp only [hk, eRemoveIdx, Option.some.injEq] at a2
            subst a2
            exact .notAList hty (by simp [hk, kind]) rfl
        case clear x p =>
          have hty := (sees_type inv hh p (subAt p t).kind).2 ⟨a1, rfl⟩
          cases hk : subAt p t with
          | list ts => simp [hk, eClear] at a2
          | dict ts => simp [hk, eClear] at a2
          | _ =>
            simp only [hk, eClear, Option.some.injEq] at a2
            subst a2
            exact .notAContainer hty (by simp [hk, kind]) (by simp [hk, kind]) rfl
    · exact absurd h (h1 (by simpa using hu) e s')

/-- Conversely, whenever there is such a reason, the statement throws, and exactly that. Two reasons for one statement
are therefore the same exception. -/
theorem C117_reason_throws {s : DState} (hs : Reachable s) {c : Stmt} {e : Exn} (hu : ∀ x ∈ c.uses, s.env x ≠ none)
    (hc : ∀ y p, c.chain = some (y, p) → Countable s y p) (hr : Reason s c e) : ∃ s', c.run s = .throw e s' := by
  have inv := hs.inv
  have ht := stmt_throws inv c
  have hch : ∃ y p, c.chain = some (y, p) := by cases hr <;> first | exact ⟨_, _, rfl⟩ | exact ⟨_, _, by assumption⟩
  obtain ⟨y, p, hch⟩ := hch
  obtain ⟨t, hh, hiff⟩ := (ht.2 y p hch).2 hu
  have hcnt := fun p1 r e => hc y p hch p1 r e t hh
  rw [hiff, editAt_fails]
  cases hr with
  | noElement h1 h2 h3 h4 =>
    rename_i y' p' i r
    rw [hch] at h1
    simp only [Option.some.injEq, Prod.mk.injEq] at h1
    obtain ⟨rfl, rfl⟩ := h1
    obtain ⟨a1, a2⟩ := (noElement_iff inv hh (hcnt p' _ rfl)).1 h2
    exact Or.inl ⟨p', i, r, rfl, a1, a2, index_exn h3 h4⟩
  | noElementToRemove h1 h2 h3 h4 =>
    rename_i x p i
    simp only [Stmt.chain, Option.some.injEq, Prod.mk.injEq] at hch
    obtain ⟨rfl, rfl⟩ := hch
    obtain ⟨a1, a2⟩ := (noElement_iff inv hh (hcnt p [] (by simp))).1 h2
    obtain ⟨-, a3⟩ := (sees_type inv hh p _).1 h1
    refine Or.inr ⟨a1, ?_⟩
    rw [index_exn h3 h4]
    cases hk : subAt p t <;> simp only [hk, kind, reduceCtorEq] at a3
    rename_i ts
    simp only [hk, asList, List.getElem?_eq_none_iff] at a2
    have : ¬ i.toNat < ts.length := by omega
    simp [Stmt.edit?, eRemoveIdx, this]
  | noKeyToRemove h1 h2 h3 h4 =>
    rename_i x p k
    simp only [Stmt.chain, Option.some.injEq, Prod.mk.injEq] at hch
    obtain ⟨rfl, rfl⟩ := hch
    obtain ⟨a1, a3⟩ := (sees_type inv hh p _).1 h1
    obtain ⟨-, a2⟩ := (sees_iff inv hh p _ _).1 h2
    have a2 := a2 (fun _ => []) (fun _ _ => [])
    refine Or.inr ⟨a1, ?_⟩
    rw [key_exn h3 h4]
    cases hk : subAt p t <;> simp only [hk, kind, reduceCtorEq] at a3
    rename_i ds
    simp only [hk, answer, Except.ok.injEq, Ans.bool.injEq] at a2
    simp only [Stmt.edit?, eRemoveKey, Option.map_some, Option.getD_some, a2]
    simp
  | notADictionary h1 h2 h3 =>
    simp only [Stmt.chain, Option.some.injEq, Prod.mk.injEq] at hch
    obtain ⟨rfl, rfl⟩ := hch
    obtain ⟨a1, a3⟩ := (sees_type inv hh _ _).1 h1
    refine Or.inr ⟨a1, ?_⟩
    rw [op_exn h3]
    rename_i x p k ty
    cases hk : subAt p t <;> simp_all [kind, Stmt.edit?, eRemoveKey]
  | notAList h1 h2 h3 =>
    simp only [Stmt.chain, Option.some.injEq, Prod.mk.injEq] at hch
    obtain ⟨rfl, rfl⟩ := hch
    obtain ⟨a1, a3⟩ := (sees_type inv hh _ _).1 h1
    refine Or.inr ⟨a1, ?_⟩
    rw [op_exn h3]
    rename_i x p k ty
    cases hk : subAt p t <;> simp_all [kind, Stmt.edit?, eRemoveIdx]
  | notAContainer h1 h2 h3 h4 =>
    simp only [Stmt.chain, Option.some.injEq, Prod.mk.injEq] at hch
    obtain ⟨rfl, rfl⟩ := hch
    obtain ⟨a1, a3⟩ := (sees_type inv hh _ _).1 h1
    refine Or.inr ⟨a1, ?_⟩
    rw [op_exn h4]
    rename_i x p ty
    cases hk : subAt p t <;> simp_all [kind, Stmt.edit?, eClear]

/-- The same for reading calls: an exception names a missing element on the way, or comes from `GetCount` on what is no
container or from `Get<T>` on what does not hold a `T`. The other reading calls throw nothing of their own. -/
theorem C117_reading {s : DState} (hs : Reachable s) {y : Nat} {p : List Sel} {q : Query} {pd : Dbl → Str} {po : Nat → Nat → Str}
    {e : Exn} (h : observeAt pd po q p s y = some (.error e)) :
    (∃ p1 i r, p = p1 ++ .idx i :: r ∧ NoElement s y p1 i ∧ e.cls = .indexOutOfBounds ∧ e.getIndex = some i.toInt) ∨
    (e.cls = .invalidOperation ∧ ∃ ty, Sees s y p .getType (.ty ty) ∧
      ((q = .getCount ∧ ty ≠ .list ∧ ty ≠ .dict) ∨
        ∃ T, q = .getVal T ∧ (ty = .value → ∀ T' v, Sees s y p (.getVal T') (.val v) → v.ty ≠ T))) := by
  have inv := hs.inv
  have hy : s.env y ≠ none := by intro hn; simp [observeAt, hn] at h
  obtain ⟨t, ht⟩ := inv.holds hy
  rw [ht.observeAt inv] at h
  cases he : (editAt p eTouch t).2 with
  | some x =>
    simp only [he, Option.some.injEq, Except.error.injEq] at h
    subst h
    rcases (editAt_fails _ x p t).1 he with ⟨p1, i, r, rfl, a1, a2, rfl⟩ | ⟨a1, a2⟩
    · exact Or.inl ⟨p1, i, r, rfl, noElement_of inv ht a1 a2, rfl, rfl⟩
    · simp [a1] at he
  | none =>
    simp only [he, Option.some.injEq] at h
    refine Or.inr ?_
    have hty := (sees_type inv ht p (subAt p t).kind).2 ⟨he, rfl⟩
    cases q <;> simp only [answer, reduceCtorEq] at h
    · cases hk : subAt p t <;> simp only [hk, Except.error.injEq, reduceCtorEq] at h <;> subst h
      all_goals exact ⟨rfl, _, hty, Or.inl ⟨rfl, by simp [hk, kind], by simp [hk, kind]⟩⟩
    · rename_i T
      have hx : e = .invalidOperation := by
        cases hk : subAt p t <;> simp only [hk, Except.error.injEq] at h
        case value v => split at h <;> simp_all
        all_goals exact h.symm
      subst hx
      refine ⟨rfl, _, hty, Or.inr ⟨T, rfl, ?_⟩⟩
      intro hv T' v hs'
      obtain ⟨-, a2⟩ := (sees_iff inv ht p _ _).1 hs'
      have a2 := a2 pd po
      cases hk : subAt p t <;> simp only [hk, answer, reduceCtorEq] at a2 h
      rename_i v'
      split at a2 <;> simp only [Except.ok.injEq, Ans.val.injEq, reduceCtorEq] at a2
      subst a2
      split at h <;> simp_all

/-- `Get<std::string>` on a number. -/
example : ∃ s, Reachable s ∧ observeAt (fun _ => []) (fun _ _ => []) (.getVal .str) [] s 2 = some (.error .invalidOperation) :=
  reach_eval [.makeVal 2 (.int 5)] (observeAt (fun _ => []) (fun _ _ => []) (.getVal .str) [] · 2) _ rfl

/-- The index a client reads from the exception is the index it used exactly below 2^31; from there on it is negative. -/
theorem C117_reported_index (i : BitVec 32) :
    ((Exn.indexOutOfBounds i.toInt).getIndex = some (i.toNat : Int) ↔ i.toNat < 2 ^ 31) ∧
    (2 ^ 31 ≤ i.toNat → (Exn.indexOutOfBounds i.toInt).getIndex = some ((i.toNat : Int) - 2 ^ 32) ∧ (i.toNat : Int) - 2 ^ 32 < 0) := by
  have hlt := i.isLt
  simp only [Exn.getIndex, Option.some.injEq, BitVec.toInt_eq_toNat_cond]
  refine ⟨?_, fun h => ?_⟩
  · split <;> omega
  · split <;> omega

/-- A program that throws both exceptions that name something: `Remove` of a missing key, and an index that is too large
three levels down. -/
def wrongProgram : List Cmd :=
  [.make 0 .empty, .indexKey 1 0 (bs "a"), .addVal 1 (.int 1), .makeVal 2 (.int 5)]

example : ∃ s, Reachable s ∧ (match Stmt.run (.removeKey 0 [] (bs "b")) s with | .throw e _ => some e | _ => none) = some (.keyNotFound (bs "b")) :=
  reach_eval wrongProgram (fun s => match Stmt.run (.removeKey 0 [] (bs "b")) s with | .throw e _ => some e | _ => none) _ (by decide +kernel)

example : ∃ s, Reachable s ∧ (match Stmt.run (.setVal 0 [.key (bs "a"), .idx 4294967295, .key (bs "c")] (.int 2)) s with
    | .throw e _ => e.getIndex | _ => none) = some (-1) :=
  reach_eval wrongProgram (fun s => match Stmt.run (.setVal 0 [.key (bs "a"), .idx 4294967295, .key (bs "c")] (.int 2)) s with
    | .throw e _ => e.getIndex | _ => none) _ (by decide +kernel)

/-- In such a state the theorems apply: the reason is there, and from the reason the exception follows. -/
example (s : DState) (hs : Reachable s) (s' : DState) (h : Stmt.run (.removeKey 0 [] (bs "b")) s = .throw (.keyNotFound (bs "b")) s') :
    Sees s 0 [] (.keyExists (bs "b")) (.bool false) := by
  cases C117_exception_is_true hs h with
  | noElement h1 h2 h3 h4 => simp [Exn.cls] at h3
  | noKeyToRemove h1 h2 h3 h4 => exact h2
  | notADictionary h1 h2 h3 => simp [Exn.cls] at h3

example : ∃ s, Reachable s ∧ Reason s (.clear 2 []) .invalidOperation ∧ (∀ x ∈ (Stmt.clear 2 []).uses, s.env x ≠ none) ∧ Countable s 2 [] := by
  refine ⟨_, ⟨wrongProgram, rfl⟩, .notAContainer (ty := .value) (fun pd po => rfl) (by simp) (by simp) rfl, ?_, ?_⟩
  · intro x hx; simp [Stmt.uses] at hx; subst hx; exact Option.some_ne_none _
  · intro p1 r hp t ht
    obtain ⟨a, ha, hr⟩ := ht
    have : p1 = [] := by cases p1 <;> simp_all
    subst this
    simp only [subAt]
    cases t with
    | list ts =>
      simp only [Rep] at hr
      obtain ⟨-, ps, hh, -⟩ := hr
      cases ha
      cases hh
    | _ => simp [asList]

/-! ## Buses, bytes, actions -/

/-- `CreateChildBus` throws `DuplicateKeyException` with the name exactly if there is a child of that name;
`ArgumentNullException` for "name" if the name is empty, but also, blaming the wrong parameter, if the name is fine and the
bus is detached; nothing else; and a call that throws changes nothing. `GetChildBus` throws `KeyNotFoundException` with the
name exactly if there is no such child. -/
theorem C117_bus (w : Bus.World) (b : Nat) (name : Str) (e : Exn) :
    ((∃ w', Bus.createChildBus b name w = .throw e w') ↔
      (name = [] ∧ e.cls = .argumentNull ∧ e.getParameterName = some (bs "name")) ∨
      (name ≠ [] ∧ (∃ c w', Bus.getChildBus b name w = .ok c w') ∧ e.cls = .duplicateKey ∧ e.getKey = some name) ∨
      (name ≠ [] ∧ (∃ x w', Bus.getChildBus b name w = .throw x w') ∧ (w.bus b).attached = false ∧
        e.cls = .argumentNull ∧ e.getParameterName = some (bs "name"))) ∧
    (∀ w', Bus.createChildBus b name w = .throw e w' → w' = w) ∧
    (∀ w', Bus.getChildBus b name w = .throw e w' → w' = w ∧ e.cls = .keyNotFound ∧ e.getKey = some name) := by
  have arg : (e.cls = .argumentNull ∧ e.getParameterName = some (bs "name")) ↔ e = .argumentNull (bs "name") := by
    cases e <;> simp [Exn.cls, Exn.getParameterName]
  have dup : (e.cls = .duplicateKey ∧ e.getKey = some name) ↔ e = .duplicateKey name := by
    cases e <;> simp [Exn.cls, Exn.getKey]
  rw [arg, dup]
  refine ⟨?_, ?_, ?_⟩
  · by_cases hn : name = []
    · simp [Bus.createChildBus, hn, @eq_comm _ e]
    · cases hf : (w.bus b).children.find name with
      | some c => simp [Bus.createChildBus, Bus.getChildBus, hn, hf, @eq_comm _ e]
      | none =>
        cases ha : (w.bus b).attached <;> simp [Bus.createChildBus, Bus.getChildBus, hn, hf, ha, @eq_comm _ e]
  · intro w' h
    simp only [Bus.createChildBus] at h
    split at h
    · simp at h; exact h.2.symm
    · split at h
      · simp at h; exact h.2.symm
      · split at h <;> simp at h; exact h.2.symm
  · intro w' h
    simp only [Bus.getChildBus] at h
    split at h <;> simp at h
    obtain ⟨rfl, rfl⟩ := h
    exact ⟨rfl, rfl, rfl⟩

/-- A detached bus refuses a child of any name it does not have yet, and blames the name. -/
example : ∃ w : Bus.World, (∃ w', Bus.createChildBus 0 (bs "fine") w = .throw (.argumentNull (bs "name")) w') ∧
    ∃ w', Bus.createChildBus 0 (bs "taken") w = .throw (.duplicateKey (bs "taken")) w' := by
  refine ⟨⟨1, fun _ => ⟨bs "r", [(bs "taken", 1)], [], [], true, false⟩, 0, fun _ => ⟨[], none, 0⟩, 0, fun _ => ⟨[], 0, false⟩, []⟩, ?_, ?_⟩
  · exact (C117_bus _ 0 (bs "fine") _).1.2 (Or.inr (Or.inr ⟨by decide, ⟨_, _, rfl⟩, rfl, rfl, rfl⟩))
  · exact (C117_bus _ 0 (bs "taken") _).1.2 (Or.inr (Or.inl ⟨by decide, ⟨1, _, rfl⟩, rfl, rfl⟩))

/-- A root bus needs a name, a request a callback. -/
theorem C117_null_arguments (name : Str) (σ : Action.St) (c : Nat) (id : Str) (k : Option Nat) (t : Tree) (e : Exn) :
    (Bus.newRoot name = .error e ↔ name = [] ∧ e.cls = .argumentNull ∧ e.getParameterName = some (bs "name")) ∧
    (Action.requestAsync σ c id k t = .error e ↔ k = none ∧ e.cls = .argumentNull ∧ e.getParameterName = some (bs "callback")) := by
  have arg : ∀ p, (e.cls = .argumentNull ∧ e.getParameterName = some p) ↔ e = .argumentNull p := by
    intro p; cases e <;> simp [Exn.cls, Exn.getParameterName]
  rw [arg, arg]
  constructor
  · by_cases hn : name = [] <;> simp [Bus.newRoot, hn, @eq_comm _ e]
  · cases k <;> simp [Action.requestAsync, @eq_comm _ e]

/-! ## Handlers -/

/-- Every exception of the library is caught by handlers for `lp::exceptions::Exception`, `std::runtime_error` and
`std::exception`, and by the handler for its own class and for no other class of the library. `std::bad_function_call`,
from a null callback, is caught by none of the library's classes and not by the handler of `main`. -/
theorem C117_handlers (e : Exn) :
    e.caughtBy .stdException = true ∧
    (e.caughtBy .runtimeError = e.caughtBy .lpException) ∧
    (e.caughtBy .lpException = true ↔ e ≠ .badFunctionCall) ∧
    ∀ d : ExnClass, d ≠ .stdException → d ≠ .runtimeError → d ≠ .lpException → (e.caughtBy d = true ↔ e.cls = d) := by
  refine ⟨by cases e <;> rfl, by cases e <;> rfl, by cases e <;> simp [Exn.caughtBy, Exn.cls, ExnClass.isA, ExnClass.isA.go, ExnClass.base], ?_⟩
  intro d h1 h2 h3
  cases e <;> cases d <;> simp_all [Exn.caughtBy, Exn.cls, ExnClass.isA, ExnClass.isA.go, ExnClass.base]

/-- A plugin entry of a configuration file that throws is reported and skipped exactly if a handler for
`OperationFailedException` catches the exception; every other exception goes on, in the state it was thrown in. -/
theorem C117_configuration_handler (early : Bool) (type : Str) (cfg : Nat) (st st1 : Host.St) (e : Exn)
    (h : Host.instantiatePlugin early type cfg st = .throw e st1) :
    (e.caughtBy .operationFailed = true →
      Host.tryPlugin early type cfg st = .ok () { st1 with notes := st1.notes ++ [.reported type cfg] }) ∧
    (e.caughtBy .operationFailed = false → Host.tryPlugin early type cfg st = .throw e st1) := by
  unfold Host.tryPlugin
  rw [h]
  cases e <;> simp [Exn.caughtBy, Exn.cls, ExnClass.isA, ExnClass.isA.go, ExnClass.base]

/-- An unknown plugin is reported and skipped, whatever the manager holds otherwise. -/
example (early : Bool) (cfg : Nat) (st : Host.St) (h : st.mgr.templates.find (bs "nobody") = none) :
    Host.tryPlugin early (bs "nobody") cfg st = .ok () { st with notes := st.notes ++ [.reported (bs "nobody") cfg] } := by
  have h1 : Host.instantiatePlugin early (bs "nobody") cfg st = .throw .operationFailed st := by
    simp [Host.instantiatePlugin, Plugin.instantiateTemplate, h]
  exact (C117_configuration_handler early _ cfg st st _ h1).1 rfl

end LP
