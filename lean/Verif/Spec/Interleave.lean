import Verif.Spec.Client
/-!
# Specification: what a thread has done and received

Statements of several threads on Datagrams, interleaved. A thread uses its own variables, except that it may copy
construct a Datagram of its own from one of another thread (which is what publishing and receiving amounts to).
-/
namespace LP.Interleave

/-- The variables a statement names. -/
def vars : Stmt → List Nat
  | .decl x _ | .declVal x _ => [x]
  | .touch x _ | .setVal x _ _ | .addVal x _ _ | .addNew x _ _ | .removeKey x _ _ | .removeIdx x _ _ | .clear x _ => [x]
  | .declCopy x y | .assignInto x _ y | .assignFrom x y _ => [x, y]

/-- The statement `c` of thread `u` keeps to the variables of `u`, or copies a Datagram of another thread. -/
def Allowed (own : Nat → Nat) (u : Nat) (c : Stmt) : Prop :=
  (∀ v ∈ vars c, own v = u) ∨ ∃ z y, c = .declCopy z y ∧ own z = u

/-- What a thread does (a statement on its own variables) or receives (a document, which it calls `z`). -/
inductive Ev where
  | does (c : Stmt)
  | got (z : Nat) (d : Tree)

/-- In the interleaving `as` that starts in `s`, thread `t` does and receives `h`. -/
def History (own : Nat → Nat) (t : Nat) : DState → List (Nat × Stmt) → List Ev → Prop
  | _, [], h => h = []
  | s, (u, c) :: as, h => ∃ s' e, Stmt.runAll [c] s = some (s', e) ∧
    if u = t then
      match h with
      | [] => False
      | .does c' :: h' => c' = c ∧ (∀ v ∈ vars c, own v = t) ∧ History own t s' as h'
      | .got z d :: h' => (∃ y, c = .declCopy z y ∧ own z = t ∧ own y ≠ t ∧ Holds s y d) ∧ History own t s' as h'
    else History own t s' as h

/-- How the statements of thread `t` ended. -/
def outcomes (t : Nat) (as : List (Nat × Stmt)) (es : List (Option Exn)) : List (Option Exn) :=
  ((as.zip es).filter (fun p => p.1.1 = t)).map Prod.snd

end LP.Interleave
