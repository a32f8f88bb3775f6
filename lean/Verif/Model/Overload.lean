import Verif.Model.Query
/-!
# Which overload a C++ argument selects

`x = e` on a `Datagram` instantiates the template `Datagram::operator=(ContentType)` (Datagram.h:74-80), whose body
`*mRawDatagram = contentValue` is resolved among the overloads of `RawDatagram::operator=` (RawDatagram.h:97-101 and the
implicit copy assignment). `Datagram(e)` is resolved among the constructors (Datagram.h:18-26), whose body is resolved
among those of `RawDatagram` (RawDatagram.h:63-73). The rules of C++14 [over.match.best], [over.ics.rank] that decide
this are part of the model, as far as these overloads and argument types need them.
-/
namespace LP.Overload
open Heap

/-- The types of the arguments considered. `enum` is an unscoped enumeration, `charPtr` is `const char*` (a string literal
decays to it because the parameters are by value), `pointer` any other object pointer, `typedPtr` is
`shared_ptr<Data<T>>`, `rawPtr` is `shared_ptr<RawDatagram>`, `kind` is `RawDatagramType` (a scoped enumeration,
RawDatagram.h:29-35), `object n` a class without conversions of its own. Datagram.h:22-26, 74-80 take any of them. -/
inductive CTy where
  | bool | char | short | enum | int | unsigned | long | unsignedLong | float | double
  | string | charPtr | pointer | nullPtr | dataPtr | typedPtr | rawPtr | kind | object (n : Nat)
  deriving DecidableEq, Repr

/-- The overloads of `RawDatagram::operator=` (RawDatagram.h:97-101) and the implicit copy assignment. There is no
implicit move assignment, because the destructor is declared (RawDatagram.h:75). -/
inductive Over where
  | string | int | double | bool | data | copy
  deriving DecidableEq, Repr

/-- All overloads (RawDatagram.h:97-101 and the implicit copy assignment). -/
def Over.all : List Over := [.string, .int, .double, .bool, .data, .copy]

/-- The rank of an implicit conversion sequence (C++14 [over.ics.scs], [over.ics.rank]): exact match, promotion,
conversion, user-defined conversion. The less the better. Arises at Datagram.h:77. -/
inductive Rank where
  | exact | promotion | conversion | user
  deriving DecidableEq, Repr

/-- Ranks as numbers, for comparison ([over.ics.rank]; Datagram.h:77). -/
def Rank.num : Rank → Nat
  | .exact => 0
  | .promotion => 1
  | .conversion => 2
  | .user => 3

/-- Integral and unscoped enumeration types that promote to `int` ([conv.prom]; for the `int` overload, RawDatagram.h:98). -/
def CTy.promotesToInt : CTy → Bool
  | .bool | .char | .short | .enum => true
  | _ => false

/-- Arithmetic and unscoped enumeration types: each converts to `int`, `double` and `bool` ([conv.integral], [conv.fpint],
[conv.double], [conv.bool]; for the overloads RawDatagram.h:98-100). -/
def CTy.arithmetic : CTy → Bool
  | .bool | .char | .short | .enum | .int | .unsigned | .long | .unsignedLong | .float | .double => true
  | _ => false

/-- The implicit conversion sequence from an argument type to the parameter of an overload, if there is one
(RawDatagram.h:97-101). A null pointer constant of type `nullptr_t` does not convert implicitly to `bool`; it does to
`std::string` (through `const char*`) and to `shared_ptr`. `shared_ptr<Data<T>>` converts to `shared_ptr<DataBase>` by a
converting constructor, `shared_ptr<RawDatagram>` does not. Everything converts to a `RawDatagram` by one of the converting
constructors RawDatagram.h:64-73. -/
def rank (t : CTy) : Over → Option Rank
  | .string => match t with
    | .string => some .exact
    | .charPtr | .nullPtr => some .user
    | _ => none
  | .int =>
    if t = .int then some .exact
    else if t.promotesToInt then some .promotion
    else if t.arithmetic then some .conversion
    else none
  | .double =>
    if t = .double then some .exact
    else if t = .float then some .promotion
    else if t.arithmetic then some .conversion
    else none
  | .bool =>
    if t = .bool then some .exact
    else if t.arithmetic || t = .charPtr || t = .pointer then some .conversion
    else none
  | .data => match t with
    | .dataPtr => some .exact
    | .typedPtr | .nullPtr => some .user
    | _ => none
  | .copy => some .user

/-- `o` is better than every other viable overload ([over.match.best]; Datagram.h:77). Two user-defined conversions by
different functions are indistinguishable. -/
def best (t : CTy) (o : Over) : Bool :=
  match rank t o with
  | none => false
  | some r => Over.all.all fun o' => o' = o || (match rank t o' with | none => true | some r' => decide (r.num < r'.num))

/-- The overload that `*mRawDatagram = e` calls for an `e` of type `t` (Datagram.h:77); `none` if the call is ambiguous and
the program does not compile. -/
def resolve (t : CTy) : Option Over := Over.all.find? (best t)

/-- An argument with its value. Values of types that no overload represents are opaque codes; `float` comes with its code
and with the `double` it widens to; `pointer 0` is the null pointer, `charPtr s a` a pointer to a non-null, terminated
character array at address `a` with text `s`; `raw` carries the address of the RawDatagram, `data` the pointee. (Arguments of
Datagram.h:22-26, 74-80.) -/
inductive Arg where
  | bool (b : Bool) | char (i : Int32) | short (i : Int32) | enum (i : Int32) | int (i : Int32)
  | unsigned (c : Nat) | long (c : Nat) | unsignedLong (c : Nat) | float (c : Nat) (d : Dbl) | double (d : Dbl)
  | string (s : Str) | charPtr (s : Str) (a : Nat) | pointer (a : Nat) | nullPtr
  | data (v : Option Val) | typedData (c : Nat) | raw (a : Nat) | kind (t : Ty) | object (n c : Nat)
  deriving DecidableEq, Repr

/-- The type of an argument (Datagram.h:74-75, `ContentType` as deduced). -/
def Arg.ty : Arg → CTy
  | .bool _ => .bool | .char _ => .char | .short _ => .short | .enum _ => .enum | .int _ => .int
  | .unsigned _ => .unsigned | .long _ => .long | .unsignedLong _ => .unsignedLong | .float _ _ => .float
  | .double _ => .double | .string _ => .string | .charPtr _ _ => .charPtr | .pointer _ => .pointer | .nullPtr => .nullPtr
  | .data _ => .dataPtr | .typedData _ => .typedPtr | .raw _ => .rawPtr | .kind _ => .kind | .object n _ => .object n

/-- The argument as a value of its own type, as `SetValue<T>` stores it when called by the converting constructor template
(RawDatagram.h:67-73, 46-58): `Data<T>` with `T` the type of the argument. The numbers name the types. -/
def Arg.own : Arg → Val
  | .bool b => .bool b | .int i => .int i | .double d => .dbl d | .string s => .str s
  | .char i => .other 0 i.toBitVec.toNat | .short i => .other 1 i.toBitVec.toNat | .enum i => .other 2 i.toBitVec.toNat
  | .unsigned c => .other 3 c | .long c => .other 4 c | .unsignedLong c => .other 5 c | .float c _ => .other 6 c
  | .charPtr _ a => .other 7 a | .pointer a => .other 8 a | .nullPtr => .other 9 0 | .data _ => .other 10 0
  | .typedData c => .other 11 c | .raw a => .other 12 a | .kind t => .other 13 (match t with | .empty => 0 | .list => 1 | .dict => 2 | .value => 3)
  | .object n c => .other (14 + n) c

/-- The argument after conversion to the parameter of one of the first four overloads (RawDatagram.h:97-100); `none` for
the pairs that overload resolution never selects. -/
def Arg.convert : Over → Arg → Option Val
  | .string, .string s => some (.str s)
  | .int, .int i | .int, .char i | .int, .short i | .int, .enum i => some (.int i)
  | .double, .double d | .double, .float _ d => some (.dbl d)
  | .bool, .bool b => some (.bool b)
  | .bool, .charPtr _ _ => some (.bool true)
  | .bool, .pointer a => some (.bool (decide (a ≠ 0)))
  | _, _ => none

/-- The RawDatagram that an argument constructs (RawDatagram.h:64-73): the constructors for `RawDatagramType` and
`shared_ptr<DataBase>` are no templates and so preferred, everything else is stored under its own type. -/
def Arg.rawNode : Arg → Node Ptr
  | .kind t => Node.ofType t
  | .data v => Node.ofData v
  | a => Node.ofVal a.own

/-- `*b = e` for the RawDatagram at `b` (Datagram.h:74-80): `none` if it does not compile. In the copy assignment the
argument is converted to a temporary RawDatagram. -/
def assignArg (e : Arg) : Option (Nat → M Heap Unit) :=
  match resolve e.ty with
  | none => none
  | some .copy => some fun b => do
    let c ← alloc e.rawNode
    Datagram.assignFromTemp b c
  | some .data => match e with
    | .data v => some fun b => on b (Node.assignData v)
    | _ => none
  | some o => (Arg.convert o e).map fun v b => Datagram.assignVal b v

/-- The statement `x[p1][p2]... = e;` (Datagram.h:38-53, 74-80), `none` if it does not compile. -/
def assignStmt (x : Nat) (p : List Sel) (e : Arg) : Option (M DState Unit) :=
  (assignArg e).map fun f => Cmd.withVar x fun a => Cmd.onHeap (follow p a >>= f)

/-- The declaration `Datagram x(e);` (Datagram.h:19-26). `shared_ptr<RawDatagram>` selects the explicit constructor, which
makes a handle to that very object (Datagram.cpp:22-29; a null pointer is not considered here). `nullptr` selects the
template, which does not compile: printing a `nullptr_t` (Data.h:46-49) is ambiguous in C++14. The declaration
`Datagram x(y)` for a Datagram `y` is `Cmd.copyCtor`. -/
def declare (x : Nat) : Arg → Option (M DState Unit)
  | .nullPtr => none
  | .raw a => some (Cmd.bindVar x (pure a))
  | e => some (Cmd.bindVar x (Datagram.make e.rawNode))

end LP.Overload
