import Verif.Model.Str
/-!
# Lifetimes of buses and their participants

Which objects of the bus layer (src/lamppost/bus/*.cpp, include/lamppost/bus/*.h) are alive: everything is owned through
`std::shared_ptr`, but a publisher and the forwarding function of a bus hold a raw `this`. Objects are numbered in the
order of their creation and numbers are never used again.

Function objects (`std::function`) are code of the program or of a library loaded by `dlopen`. Destroying or calling one
after its library has been closed (PluginManager.cpp:52-67, 193) is undefined. That the library is really unmapped then,
and that other code of the library (virtual tables, the control blocks of `make_shared`) is not concerned, are
simplifications. One thread; `Model/Race` is about several. Messages and names are left out.
-/
namespace LP.Life

/-- A `std::function`: the objects it owns (captured `shared_ptr`s) and the library its code is in (`none`: the program
itself). Member type of Subscriber.h:21, ActionProvider.h:26, ActionConsumer.h:31. -/
structure Fn where
  owns : List Nat
  lib : Option Nat

/-- A `Bus` (Bus.h:36-60). `parts` are the elements of `mPublishers`, `mSubscribers`, `mActionProviders` and
`mActionConsumers` together (simplification). `fwd` is the `this` in `mPublishMessageFunction` (Bus.cpp:18-26), copied
to children (Bus.cpp:75); `none`: a null function. -/
structure BusO where
  kids : List Nat
  parts : List Nat
  fwd : Option Nat

/-- An object (Bus.h:36-60, Subscriber.h:18-34, Publisher.h:19-31, ActionConsumer.h:25-43, ActionProvider.h:20-37). -/
inductive Obj where
  | bus (b : BusO)
  /-- `Subscriber` with `mCallback` (Subscriber.h:21) -/
  | sub (cb : Option Fn)
  /-- `Publisher` with the `this` of its function and the library the lambda was compiled into: `CreatePublisher` is a
  template, its lambda belongs to the calling code (Bus.h:102-114) -/
  | pub (fn : Option (Nat × Option Nat))
  /-- `ActionProvider` with `mCallback`, or `ActionConsumer` with `mOpenRequests`, and the subscriber and publisher they
  own (ActionProvider.h:23-26, ActionConsumer.h:28-31) -/
  | act (provider : Bool) (sub pub : Nat) (fns : List Fn)

/-- The function objects inside an object that may own something (Subscriber.h:21, ActionProvider.h:26,
ActionConsumer.h:31). -/
def Obj.fns : Obj → List Fn
  | .bus _ => []
  | .sub cb => cb.toList
  | .pub _ => []
  | .act _ _ _ fs => fs

/-- What an object owns (its `shared_ptr` members, Bus.h:41-59, and those of its function objects). -/
def Obj.owned : Obj → List Nat
  | .bus b => b.kids ++ b.parts
  | .sub cb => cb.toList.flatMap Fn.owns
  | .pub _ => []
  | .act _ s p fs => s :: p :: fs.flatMap Fn.owns

/-- The libraries whose code is in an object (Bus.h:102-172). -/
def Obj.code : Obj → List Nat
  | .bus _ => []
  | .sub cb => cb.toList.filterMap Fn.lib
  | .pub fn => fn.toList.filterMap Prod.snd
  | .act _ _ _ fs => fs.filterMap Fn.lib

/-- The program: `obj` the live objects, `held` the `shared_ptr` variables of client code, `closed` the libraries that
were closed; `parent` remembers under which bus a bus was created (ghost: it has no counterpart in the code)
(Bus.h:41-59). -/
structure St where
  n : Nat
  obj : Nat → Option Obj
  parent : Nat → Option Nat
  held : List Nat
  closed : List Nat

/-- The beginning of `main` (src/main.cpp:21-52): no objects. -/
def init : St := ⟨0, fun _ => none, fun _ => none, [], []⟩

namespace St

/-- Change one object (assignments to members) (Bus.cpp:76, 208, Subscriber.cpp:36, 52, Publisher.cpp:30,
ActionConsumer.cpp:33). -/
def put (σ : St) (a : Nat) (o : Option Obj) : St := { σ with obj := fun i => if i = a then o else σ.obj i }

/-- `make_shared` (Bus.h:67, Bus.cpp:75): a new object. -/
def alloc (σ : St) (o : Obj) : St := { σ.put σ.n (some o) with n := σ.n + 1 }

/-- A client variable receives a `shared_ptr` (what Bus.h:72, 145, 171 and Bus.cpp:80, 91 return). -/
def hold (σ : St) (a : Nat) : St := { σ with held := a :: σ.held }

/-- Code of this library can run: it has not been closed (PluginManager.cpp:193). -/
def runs (σ : St) : Option Nat → Bool
  | none => true
  | some l => !σ.closed.contains l

/-- An object contains code of a closed library (the libraries of PluginManager.cpp:43-67). -/
def stale (σ : St) (o : Obj) : Bool := o.code.any (fun l => σ.closed.contains l)

/-- No `shared_ptr` to the object is left: its reference count is 0 (the `shared_ptr`s of Bus.h:41-59,
ActionConsumer.h:28-29, ActionProvider.h:23-24). -/
def unreferenced (σ : St) (a : Nat) : Bool :=
  !σ.held.contains a && (List.range σ.n).all (fun i => match σ.obj i with
    | none => true
    | some o => !o.owned.contains a)

/-- No destructor is due (no code of its own: the reference counts of Bus.h:41-59). -/
def settled (σ : St) : Bool :=
  (List.range σ.n).all (fun i => (σ.obj i).isNone || !σ.unreferenced i)

/-- A function given by client code: it captures handles the client has, and its code can run (the arguments of
Bus.h:103-172, Subscriber.cpp:39-53). -/
def mayUse (σ : St) (f : Fn) : Bool := f.owns.all (fun a => σ.held.contains a) && σ.runs f.lib

end St

/-- `Bus::Detach` (Bus.cpp:206-216). The first argument bounds the depth. `Stop` is left out. -/
def detach : Nat → Nat → St → St
  | 0, _, σ => σ
  | k + 1, b, σ => match σ.obj b with
    | some (.bus o) => o.kids.foldl (fun σ c => detach k c σ) (σ.put b (some (.bus { o with fwd := none })))
    | _ => σ

/-- The destructor body: of a bus (Bus.cpp:46-60) it detaches the children and with them everything below; the
destructors of the other classes have no body. -/
def body (σ : St) (a : Nat) : St := detach σ.n a σ

/-- What may come of a step (no code of its own: outcomes of the calls of Bus.h:92-186). -/
inductive Res where
  | cannot
  | ub
  | to (σ : St)

/-- `Bus::Publish` on a live bus (Bus.cpp:99-105): the function dereferences the root it was made by. -/
def forward (σ : St) (o : BusO) : Res :=
  match o.fwd with
  | none => .to σ
  | some r => if (σ.obj r).isSome then .to σ else .ub

/-- `Publisher::Publish` (Publisher.cpp:20-26) with the lambda of `CreatePublisher` (Bus.h:108-111) and
`Bus::Publish` (Bus.cpp:94-97). -/
def publish (σ : St) (p : Nat) : Res :=
  match σ.obj p with
  | some (.pub none) => .to σ
  | some (.pub (some (b, l))) =>
    if σ.runs l then
      match σ.obj b with
      | some (.bus o) => forward σ o
      | _ => .ub
    else .ub
  | _ => .cannot

/-- What happens. Every call needs a handle to the object it is made on (Bus.h:92-186). -/
inductive Act where
  /-- `make_shared<Bus>(name)` (LampPost.cpp:10) -/
  | newRoot
  /-- `CreateChildBus` (Bus.cpp:62-81); on a detached bus it throws and changes nothing (Bus.cpp:40-43) -/
  | createChild (b : Nat)
  /-- `GetChildBus` (Bus.cpp:83-92) -/
  | getChild (b c : Nat)
  /-- `CreateSubscriber` (Bus.h:116-120) -/
  | createSub (b : Nat) (cb : Option Fn)
  /-- `CreatePublisher` (Bus.h:102-114) called by code of the given library -/
  | createPub (b : Nat) (lib : Option Nat)
  /-- `CreateActionProvider` with a callback (Bus.h:122-146) or `CreateActionConsumer` with none (Bus.h:148-172) called by
  code of the given library -/
  | createAct (b : Nat) (fn : Option Fn) (lib : Option Nat)
  /-- `SetDatagramCallback`, `SetMessageCallback` (Subscriber.cpp:39-53) -/
  | setCb (s : Nat) (cb : Option Fn)
  /-- `RequestAsync` (ActionConsumer.cpp:22-40): the callback is registered, then the request is published -/
  | request (a : Nat) (fn : Fn)
  /-- the function number `i` is erased after a response (ActionConsumer.cpp:77), or cleared by `ActionProvider::Reset`
  (ActionProvider.cpp:20-23) -/
  | erase (a i : Nat)
  /-- `ActionProvider::Respond` (ActionProvider.cpp:25-32) -/
  | respond (a : Nat)
  /-- `DeleteSubscriber`, `DeletePublisher` (Bus.cpp:107-115, Bus.h:75-81) -/
  | delete (b p : Nat)
  /-- `Publisher::Publish` -/
  | publish (p : Nat)
  /-- `Bus::Publish(message)` -/
  | busPublish (b : Nat)
  /-- `Detach` -/
  | detach (b : Nat)
  /-- a message reaches the subscriber `s` of bus `b` (Bus.cpp:187-193); if that belongs to a provider or consumer, its
  function number `i` is called then (Bus.h:137-143, 163-169) -/
  | deliver (b s i : Nat)
  /-- a handle is copied -/
  | copy (a : Nat)
  /-- code of a function object copies a handle it has captured -/
  | captured (i a : Nat)
  /-- a handle is released -/
  | drop (a : Nat)
  /-- a library is closed (PluginManager.cpp:52-67) -/
  | close (l : Nat)
  /-- the object, to which no `shared_ptr` is left, is destroyed -/
  | destroy (a : Nat)

/-- One of the calls, when no destructor is due (Bus.cpp:62-216, Bus.h:102-172; see the functions called). -/
def call (σ : St) : Act → Res
  | .newRoot => .to ((σ.alloc (.bus ⟨[], [], some σ.n⟩)).hold σ.n)
  | .createChild b => if b ∈ σ.held then match σ.obj b with
      | some (.bus o) => match o.fwd with
        | none => .to σ
        | some r => .to { ((σ.alloc (.bus ⟨[], [], some r⟩)).put b (some (.bus { o with kids := σ.n :: o.kids }))).hold σ.n
            with parent := fun i => if i = σ.n then some b else σ.parent i }
      | _ => .cannot
    else .cannot
  | .getChild b c => if b ∈ σ.held then match σ.obj b with
      | some (.bus o) => if c ∈ o.kids then .to (σ.hold c) else .cannot
      | _ => .cannot
    else .cannot
  | .createSub b cb => if b ∈ σ.held ∧ cb.all σ.mayUse then match σ.obj b with
      | some (.bus o) => .to (((σ.alloc (.sub cb)).put b (some (.bus { o with parts := σ.n :: o.parts }))).hold σ.n)
      | _ => .cannot
    else .cannot
  | .createPub b lib => if b ∈ σ.held ∧ σ.runs lib then match σ.obj b with
      | some (.bus o) => .to (((σ.alloc (.pub (some (b, lib)))).put b (some (.bus { o with parts := σ.n :: o.parts }))).hold σ.n)
      | _ => .cannot
    else .cannot
  | .createAct b fn lib => if b ∈ σ.held ∧ σ.runs lib ∧ fn.all σ.mayUse then match σ.obj b with
      | some (.bus o) =>
        let s := σ.n
        let σ1 := σ.alloc (.sub (some ⟨[s + 2], lib⟩))
        let σ2 := σ1.alloc (.pub (some (b, lib)))
        let σ3 := σ2.alloc (.act fn.isSome s (s + 1) fn.toList)
        .to ((σ3.put b (some (.bus { o with parts := (s + 2) :: (s + 1) :: s :: o.parts }))).hold (s + 2))
      | _ => .cannot
    else .cannot
  | .setCb s cb => if s ∈ σ.held ∧ cb.all σ.mayUse then match σ.obj s with
      | some (.sub old) => if σ.stale (.sub old) then .ub else .to (σ.put s (some (.sub cb)))
      | _ => .cannot
    else .cannot
  | .request a fn => if a ∈ σ.held ∧ σ.mayUse fn then match σ.obj a with
      | some (.act false s p fs) => publish (σ.put a (some (.act false s p (fn :: fs)))) p
      | _ => .cannot
    else .cannot
  | .erase a i => match σ.obj a with
      | some (.act k s p fs) => match fs[i]? with
        | none => .cannot
        | some f => if σ.runs f.lib then .to (σ.put a (some (.act k s p (fs.eraseIdx i)))) else .ub
      | _ => .cannot
  | .respond a => if a ∈ σ.held then match σ.obj a with
      | some (.act true _ p _) => publish σ p
      | _ => .cannot
    else .cannot
  | .delete b p => if b ∈ σ.held ∧ p ∈ σ.held then match σ.obj b, σ.obj p with
      | some (.bus o), some (.sub cb) => if σ.stale (.sub cb) then .ub
        else .to ((σ.put p (some (.sub none))).put b (some (.bus { o with parts := o.parts.filter (fun i => i != p) })))
      | some (.bus o), some (.pub fn) => if σ.stale (.pub fn) then .ub
        else .to ((σ.put p (some (.pub none))).put b (some (.bus { o with parts := o.parts.filter (fun i => i != p) })))
      | _, _ => .cannot
    else .cannot
  | .publish p => if p ∈ σ.held then publish σ p else .cannot
  | .busPublish b => if b ∈ σ.held then match σ.obj b with
      | some (.bus o) => forward σ o
      | _ => .cannot
    else .cannot
  | .detach b => if b ∈ σ.held then match σ.obj b with
      | some (.bus _) => .to (detach σ.n b σ)
      | _ => .cannot
    else .cannot
  | .deliver b s i => match σ.obj b, σ.obj s with
    | some (.bus o), some (.sub (some f)) =>
      if s ∈ o.parts then
        if σ.runs f.lib then
          match f.owns with
          | [a] => match σ.obj a with
            | some (.act _ s' _ fs) => if s' = s then match fs[i]? with
                | none => .cannot
                | some g => if σ.runs g.lib then .to σ else .ub
              else .to σ
            | _ => .to σ
          | _ => .to σ
        else .ub
      else .cannot
    | _, _ => .cannot
  | .copy a => if a ∈ σ.held then .to (σ.hold a) else .cannot
  | .captured i a => match σ.obj i with
      | some o => if o.fns.any (fun f => f.owns.contains a && σ.runs f.lib) then .to (σ.hold a) else .cannot
      | none => .cannot
  | .drop a => if a ∈ σ.held then .to { σ with held := σ.held.erase a } else .cannot
  | .close l => .to { σ with closed := l :: σ.closed }
  | .destroy _ => .cannot

/-- The destruction of one object (reference count 0): destructor body, then the members, among them its function
objects. The objects it owned are destroyed by further steps if no other reference is left (Bus.cpp:46-60,
Subscriber.h:26, Publisher.h:26, ActionConsumer.h:35, ActionProvider.h:30). -/
def destroy (σ : St) (a : Nat) : Res :=
  match σ.obj a with
  | none => .cannot
  | some o => if σ.unreferenced a then (if σ.stale o then .ub else .to ((body σ a).put a none)) else .cannot

/-- One step: destructors that are due come first (Bus.cpp:46-216). -/
def step (σ : St) (a : Act) : Res :=
  match a with
  | .destroy x => destroy σ x
  | a => if σ.settled then call σ a else .cannot

/-- A sequence of steps (no code of its own: a client of Bus.h:92-186). -/
def exec (σ : St) : List Act → Res
  | [] => .to σ
  | a :: as => match step σ a with
    | .to σ' => exec σ' as
    | .ub => .ub
    | .cannot => .cannot

end LP.Life
