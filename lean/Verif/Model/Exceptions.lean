import Verif.Model.Out
/-!
# The exception classes
-/
namespace LP

/-- The classes of exceptions: those of include/lamppost/exceptions/*.h, and the classes of the standard library they
meet. -/
inductive ExnClass where
  | stdException | runtimeError | badFunctionCall
  | lpException | argumentNull | duplicateKey | indexOutOfBounds | invalidOperation | keyNotFound | operationFailed
  deriving DecidableEq, Repr

namespace ExnClass

/-- The public base class (Exception.h:13, ArgumentNullException.h:14, DuplicateKeyException.h:15,
IndexOutOfBoundsException.h:12, InvalidOperationException.h:12, KeyNotFoundException.h:14, OperationFailedException.h:14;
`std::runtime_error` and `std::bad_function_call` derive from `std::exception`). -/
def base : ExnClass → Option ExnClass
  | .stdException => none
  | .runtimeError | .badFunctionCall => some .stdException
  | .lpException => some .runtimeError
  | _ => some .lpException

/-- Is `c` the class `d` or derived from it? The hierarchy has four levels. (C++ [except.handle]; the handlers are
LampPost.cpp:97 and main.cpp:42.) -/
def isA (c d : ExnClass) : Bool :=
  go 4 c
where
  go : Nat → ExnClass → Bool
    | 0, _ => false
    | n + 1, c => c == d || (match c.base with | some b => go n b | none => false)

end ExnClass

namespace Exn

/-- The class of the thrown object (the throw expressions: LampPost.cpp:63, ActionConsumer.cpp:28, Publisher.cpp:16,
Bus.cpp:15-88, RawBytes.cpp:19, Service.cpp:54-121, RawDatagram.cpp:113-214, RawDatagram.h:114). -/
def cls : Exn → ExnClass
  | argumentNull _ => .argumentNull
  | duplicateKey _ => .duplicateKey
  | indexOutOfBounds _ => .indexOutOfBounds
  | invalidOperation => .invalidOperation
  | keyNotFound _ => .keyNotFound
  | operationFailed => .operationFailed
  | badFunctionCall => .badFunctionCall

/-- `catch(d& e)` catches the exception (the handlers in LampPost.cpp:97 and main.cpp:42). -/
def caughtBy (e : Exn) (d : ExnClass) : Bool := e.cls.isA d

/-- `GetKey()` (DuplicateKeyException.cpp:8-17, KeyNotFoundException.cpp:8-17). -/
def getKey : Exn → Option Str
  | duplicateKey k | keyNotFound k => some k
  | _ => none

/-- `GetIndex()` (IndexOutOfBoundsException.cpp:8-17). -/
def getIndex : Exn → Option Int
  | indexOutOfBounds i => some i
  | _ => none

/-- `GetParameterName()` (ArgumentNullException.cpp:8-17). -/
def getParameterName : Exn → Option Str
  | argumentNull p => some p
  | _ => none

end Exn
end LP
