import Verif.Model.Str
/-!
# Outcomes of C++ computations
-/
namespace LP

/-- The exceptions that can leave a function of /repo (include/lamppost/exceptions/*.h) plus
`std::bad_function_call` for invoking an empty `std::function`. The payload is what the exception object exposes;
messages are dropped. -/
inductive Exn where
  | argumentNull (param : Str)      -- ArgumentNullException.h
  | duplicateKey (key : Str)        -- DuplicateKeyException.h
  | indexOutOfBounds (index : Int)  -- IndexOutOfBoundsException.h (stores an `int`)
  | invalidOperation                -- InvalidOperationException.h
  | keyNotFound (key : Str)         -- KeyNotFoundException.h
  | operationFailed                 -- OperationFailedException.h
  | badFunctionCall                 -- std::bad_function_call
  deriving DecidableEq, Repr

/-- The outcome of a C++ computation on a state `σ`: normal return, exception (the state changes made before the
throw persist), undefined behaviour, or recursion bound exhausted (the interpreter's stand-in for "still running")
(no code of its own: outcomes of the functions of RawDatagram.cpp:8-550 and Bus.cpp:8-216). -/
inductive Res (σ α : Type) where
  | ok (a : α) (s : σ)
  | throw (e : Exn) (s : σ)
  | ub
  | fuel
  deriving Repr

/-- C++ statements as state transformers with outcomes (no code of its own: function bodies such as
RawDatagram.cpp:8-550). -/
def M (σ α : Type) := σ → Res σ α

namespace M
variable {σ α β : Type}

/-- Normal completion (no code of its own: `return` as in RawDatagram.cpp:8-550). -/
def pure (a : α) : M σ α := fun s => .ok a s

/-- Sequencing: an exception, undefined behaviour or exhaustion skips the rest (no code of its own: `;` as in
RawDatagram.cpp:8-550). -/
def bind (m : M σ α) (f : α → M σ β) : M σ β := fun s =>
  match m s with
  | .ok a s' => f a s'
  | .throw e s' => .throw e s'
  | .ub => .ub
  | .fuel => .fuel

instance : Monad (M σ) where
  pure := M.pure
  bind := M.bind

/-- Read the state (no code of its own: reading members, RawDatagram.h:37-44). -/
def get : M σ σ := fun s => .ok s s
/-- Apply a function to the state (no code of its own: writing members, RawDatagram.h:37-44). -/
def modify (f : σ → σ) : M σ Unit := fun s => .ok () (f s)
/-- Undefined behaviour (no code of its own: e.g. RawDatagram.cpp:348-402 on a null pointer). -/
def ub : M σ α := fun _ => .ub
/-- Recursion bound exhausted (no code of its own: the recursions RawDatagram.cpp:262-479). -/
def outOfFuel : M σ α := fun _ => .fuel

/-- A range-based `for` loop over a container (e.g. RawDatagram.cpp:59-62): run the body on each element in order,
stopping at the first exception. -/
def each (f : α → M σ Unit) : List α → M σ Unit
  | [] => pure ()
  | a :: as => bind (f a) (fun _ => each f as)

@[simp] theorem pure_run (a : α) (s : σ) : (Pure.pure a : M σ α) s = .ok a s := rfl
@[simp] theorem bind_run (m : M σ α) (f : α → M σ β) (s : σ) :
    (m >>= f) s = match m s with
      | .ok a s' => f a s' | .throw e s' => .throw e s' | .ub => .ub | .fuel => .fuel := rfl
@[simp] theorem pure_run' (a : α) (s : σ) : (M.pure a : M σ α) s = .ok a s := rfl
@[simp] theorem bind_run' (m : M σ α) (f : α → M σ β) (s : σ) :
    (M.bind m f) s = match m s with
      | .ok a s' => f a s' | .throw e s' => .throw e s' | .ub => .ub | .fuel => .fuel := rfl
@[simp] theorem get_run (s : σ) : (M.get : M σ σ) s = .ok s s := rfl
@[simp] theorem modify_run (f : σ → σ) (s : σ) : M.modify f s = .ok () (f s) := rfl
@[simp] theorem ub_run (s : σ) : (M.ub : M σ α) s = .ub := rfl
@[simp] theorem outOfFuel_run (s : σ) : (M.outOfFuel : M σ α) s = .fuel := rfl
@[simp] theorem each_nil (f : α → M σ Unit) (s : σ) : each f [] s = .ok () s := rfl
@[simp] theorem each_cons (f : α → M σ Unit) (a : α) (as : List α) (s : σ) :
    each f (a :: as) s = match f a s with
      | .ok _ s' => each f as s' | .throw e s' => .throw e s' | .ub => .ub | .fuel => .fuel := by
  cases h : f a s <;> simp [each, h]

end M
end LP
