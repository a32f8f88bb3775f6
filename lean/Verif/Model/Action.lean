import Verif.Model.BusConc
import Verif.Spec.Doc
/-!
# Actions: providers, consumers, asynchronous and blocking requests

A transition system on top of `Verif.Model.BusConc`. The callbacks that `CreateActionProvider` and
`CreateActionConsumer` put on their private subscribers are executed as part of the bus thread's steps.
Simplifications: `mOpenRequests` is a `std::map` that the requesting threads and the bus thread access without a lock
(a data race in C++); each access is taken to be atomic here. Invocation ids are given by the caller of the step
(statements assume distinct ids where they need it; see `Verif.Model.Uuid` for what the generator guarantees).
Datagrams are given by the trees they denote; `Verif.Prop.Action` shows that the tree functions of this file are what
the Datagram API calls compute.
-/
namespace LP.Action
open LP.Bus (BMsg Delivery)

/-- The outcome of an event: impossible in this state, undefined behaviour, or a new state (`ub` is the call through
an empty `std::function` or null pointer of ActionProvider.cpp:36, ActionConsumer.cpp:77 and Bus.h:140-168). -/
inductive Next (α : Type) where
  | cannot
  | undefined
  | to (a : α)

/-- The topic suffixes (Bus.h:125-126, 151-152). -/
def requestTopic (topic : Str) : Str := topic ++ bs "/request"
/-- See `requestTopic` (Bus.h:126, 152). -/
def responseTopic (topic : Str) : Str := topic ++ bs "/response"

/-- `wrapped["invocationId"] = id; wrapped[key] = content;` on a new Datagram (ActionConsumer.cpp:35-37 with key
"request", ActionProvider.cpp:27-29 with key "response"). -/
def envelope (key : Str) (id : Str) (content : Tree) : Tree :=
  .dict (Dict.insert key content (Dict.insert (bs "invocationId") (.value (.str id)) []))

/-- `static_cast<std::string>(datagram["invocationId"])` (Bus.h:140, 165); `none`: the conversion throws. -/
def idOf (t : Tree) : Option Str :=
  match Tree.subAt [.key (bs "invocationId")] t with
  | .value (.str s) => some s
  | _ => none

/-- `messages::Datagram response = datagram["response"]` (Bus.h:166). -/
def responseOf (t : Tree) : Tree := Tree.subAt [.key (bs "response")] t

/-- What is stored in `mOpenRequests` (ActionConsumer.h): a function of the client, or the lambda of the `n`-th call of
`Request` (ActionConsumer.cpp:54-62), which refers to the local variables of that call. -/
inductive Cb where
  | user (k : Nat)
  | frame (n : Nat)
  deriving DecidableEq

/-- An `ActionConsumer` (ActionConsumer.h, ActionConsumer.cpp:8-16, BusParticipant.h): its topic, private subscriber and publisher and the open
requests. -/
structure Cons where
  topic : Str
  sub : Nat
  pub : Nat
  opened : Dict Cb

/-- An `ActionProvider` (ActionProvider.h, ActionProvider.cpp:8-18); `cb = none` is a null `mCallback`. -/
structure Prov where
  topic : Str
  sub : Nat
  pub : Nat
  cb : Option Nat

/-- Where a call of `Request` is (ActionConsumer.cpp:42-71). -/
inductive Wait where
  /-- inside `RequestAsync` (line 52) -/
  | sending
  /-- in `wait_for`, about to evaluate `!waiting` (line 64) -/
  | check
  /-- the predicate was false, not yet blocked: a notification is lost -/
  | drowsy
  /-- blocked -/
  | asleep
  /-- the call has returned: the local variables no longer exist -/
  | done
  deriving DecidableEq

/-- The local variables of a call of `Request` (ActionConsumer.cpp:44-50); `result` is what the call returned. -/
structure Frame where
  cons : Nat
  id : Str
  pc : Wait
  waiting : Bool
  response : Tree
  result : Option Tree

/-- Progress of the lambda of `Request` on the bus thread (ActionConsumer.cpp:56-61). -/
inductive Stage where
  /-- line 56 -/
  | test
  /-- line 58 -/
  | store
  /-- line 59 -/
  | flag
  /-- line 60 -/
  | wake
  /-- nothing left -/
  | over
  deriving DecidableEq

/-- What the callback running on the bus thread is (the lambdas of Bus.h:137-143, 163-169 and what they call,
ActionProvider.cpp:34-37, ActionConsumer.cpp:73-81). -/
inductive Cur where
  /-- no callback is running -/
  | idle
  /-- a callback of an ordinary subscriber -/
  | plain
  /-- the callback of a consumer or provider is about to throw `InvalidOperationException` (no string under
  "invocationId") or `std::bad_function_call` (null provider callback) -/
  | doomed (e : Exn)
  /-- `ProcessResponse` found no open request (ActionConsumer.cpp:75) -/
  | ignored
  /-- `ProcessRequest` is executing the provider's callback (ActionProvider.cpp:36) -/
  | providing (p : Nat) (id : Str)
  /-- `ProcessResponse` is executing the callback of an open request (ActionConsumer.cpp:77) -/
  | answering (c : Nat) (id : Str) (cb : Cb) (t : Tree) (stage : Stage)

/-- What an observer sees: a consumer's callback or a provider's callback begins (the calls in ActionConsumer.cpp:77
and ActionProvider.cpp:36). -/
inductive Ev where
  | answered (c : Nat) (id : Str) (cb : Cb) (t : Tree)
  | requested (p : Nat) (k : Nat) (id : Str) (t : Tree)

/-- A started `RequestAsync` that has registered its callback and not yet called `Publish` (ActionConsumer.cpp:33-39);
`frame` is the call of `Request` it belongs to. -/
structure Pending where
  cons : Nat
  id : Str
  request : Tree
  frame : Option Nat

/-- A registered request, as an observation: consumer, id, callback, request, and how many callbacks the bus had
invoked by then (ActionConsumer.cpp:31-33). -/
structure Asked where
  cons : Nat
  id : Str
  cb : Cb
  request : Tree
  seen : Nat

/-- The whole state. `evs`, `asked`, `replied` and `threw` are observations: the callback invocations, the requests
registered, the calls of `Respond` (provider, id, response), and the requests (consumer, id) whose callback threw, each
in order (Bus.h:36-60, ActionConsumer.h:28-31, ActionProvider.h:23-26). -/
structure St where
  bus : Bus.St
  cons : List Cons
  provs : List Prov
  pending : List Pending
  frames : List Frame
  cur : Cur
  /-- the call of `Request` the bus thread is in, if a callback called it -/
  inside : Option Nat
  evs : List Ev
  asked : List Asked
  replied : List (Nat × Str × Tree)
  threw : List (Nat × Str)

/-- Which function a callback number of `Verif.Model.Bus` stands for (Subscriber.h:21; the lambdas of Bus.h:137-143
and 163-169). -/
inductive Fn where
  | user
  | consumer (c : Nat)
  | provider (p : Nat)

/-- Callback numbers: `3k` are functions of the client, `3c+1` is the lambda of Bus.h:163-169 for consumer `c`,
`3p+2` the lambda of Bus.h:137-143 for provider `p`. -/
def fnOf (n : Nat) : Fn :=
  if n % 3 = 1 then .consumer (n / 3) else if n % 3 = 2 then .provider (n / 3) else .user

/-- The private subscribers of consumers and providers (members `mResponseSubscriber`, `mRequestSubscriber`,
ActionConsumer.h, ActionProvider.h). -/
def ownedSub (σ : St) (s : Nat) : Bool := σ.cons.any (fun c => c.sub == s) || σ.provs.any (fun p => p.sub == s)

/-- The private publishers (members `mRequestPublisher`, `mResponsePublisher`) (ActionConsumer.h:29,
ActionProvider.h:24). -/
def ownedPub (σ : St) (q : Nat) : Bool := σ.cons.any (fun c => c.pub == q) || σ.provs.any (fun p => p.pub == q)

/-- A bus event a client can cause directly: it has no access to the private subscribers and publishers, and the
lambdas of Bus.h:137-143, 163-169 are not available to it. -/
def clientMay (σ : St) : Bus.Act → Bool
  | .run _ => false
  | .createSub _ _ (some k) => k % 3 == 0
  | .setCb s cb => !ownedSub σ s && (match cb with | some k => k % 3 == 0 | none => true)
  | .deleteSub _ s => !ownedSub σ s
  | .deletePub _ q => !ownedPub σ q
  | .pubPublish q _ => !ownedPub σ q
  | _ => true

/-- A callback of the client is a single piece of client code; the lambda of `Request` is followed line by line
(ActionConsumer.cpp:54-62, 77). -/
def firstStage : Cb → Stage
  | .user _ => .over
  | .frame _ => .test

/-- What a callback that was just invoked does before it calls client code (Bus.h:137-143, 163-169,
ActionConsumer.cpp:73-77, ActionProvider.cpp:34-37). -/
def dispatch (σ : St) (d : Delivery) : St :=
  match fnOf d.cb with
  | .user => { σ with cur := .plain }
  | .consumer c =>
    match idOf d.msg.dg, σ.cons[c]? with
    | some id, some x =>
      match x.opened.find id with
      | none => { σ with cur := .ignored }
      | some cb =>
        { σ with cur := .answering c id cb (responseOf d.msg.dg) (firstStage cb)
                 evs := σ.evs ++ [.answered c id cb (responseOf d.msg.dg)] }
    | _, _ => { σ with cur := .doomed .invalidOperation }
  | .provider p =>
    match idOf d.msg.dg, σ.provs[p]? with
    | some id, some x =>
      match x.cb with
      | none => { σ with cur := .doomed .badFunctionCall }
      | some k => { σ with cur := .providing p id, evs := σ.evs ++ [.requested p k id d.msg.dg] }
    | _, _ => { σ with cur := .doomed .invalidOperation }

/-- `mOpenRequests.erase(invocationId)` (ActionConsumer.cpp:78). -/
def closeRequest (σ : St) (c : Nat) (id : Str) : St :=
  { σ with cons := σ.cons.modify c (fun x => { x with opened := x.opened.erase id }) }

/-- May the running callback end in this way? Client code may return or throw; the code of the library is
determined (Bus.h:137-143, 163-169, ActionConsumer.cpp:54-62, 73-81). -/
def mayEnd : Cur → Bus.Choice → Bool
  | .plain, .go => true
  | .plain, .throwing => true
  | .doomed _, .throwing => true
  | .ignored, .go => true
  | .providing _ _, .go => true
  | .providing _ _, .throwing => true
  | .answering _ _ (.user _) _ .over, .go => true
  | .answering _ _ (.user _) _ .over, .throwing => true
  | .answering _ _ (.frame _) _ .over, .go => true
  | _, _ => false

/-- The bus thread is blocked in a call of `Request` that a callback made (ActionConsumer.cpp:64). -/
def blocked (σ : St) : Bool :=
  match σ.inside with
  | none => false
  | some n => match σ.frames[n]? with
    | some f => decide (f.pc ≠ .done)
    | none => false

/-- One step of the bus thread in `Run` (Bus.cpp:137-169): outside callbacks a step of the bus, starting the callback
that the step invoked; inside a callback its end. -/
def run (σ : St) (c : Bus.Choice) : Next St :=
  if blocked σ then .cannot
  else match Bus.rstep c σ.bus with
  | none => .cannot
  | some b =>
    match σ.bus.phase with
    | .visit _ _ true _ =>
      if mayEnd σ.cur c then
        let σ' := { σ with bus := b, cur := .idle, inside := none }
        match σ.cur, c with
        | .answering k id _ _ _, .go => .to (closeRequest σ' k id)
        | .answering k id _ _ _, .throwing => .to { σ' with threw := σ.threw ++ [(k, id)] }
        | _, _ => .to σ'
      else .cannot
    | _ =>
      match (b.log.drop σ.bus.log.length).head? with
      | none => .to { σ with bus := b }
      | some d => .to (dispatch { σ with bus := b } d)

/-- One step of the lambda of `Request` on the bus thread (ActionConsumer.cpp:56-61). It refers to local variables of
the call of `Request`: if that call has returned, this is undefined behaviour. Line 58 also copies a Datagram, line 60
wakes the waiting thread if it is blocked (a notification reaching no waiting thread is lost). -/
def lambda (σ : St) : Next St :=
  match σ.cur with
  | .answering c id (.frame n) t stage =>
    match σ.frames[n]? with
    | none => .cannot
    | some f =>
      if stage = .over then .cannot
      else if f.pc = .done then .undefined
      else
        match stage with
        | .test => .to { σ with cur := .answering c id (.frame n) t (if f.waiting then .store else .over) }
        | .store => .to { σ with cur := .answering c id (.frame n) t .flag
                                 frames := σ.frames.set n { f with response := t } }
        | .flag => .to { σ with cur := .answering c id (.frame n) t .wake
                                frames := σ.frames.set n { f with waiting := false } }
        | .wake => .to { σ with cur := .answering c id (.frame n) t .over
                                frames := σ.frames.set n { f with pc := if f.pc = .asleep then .check else f.pc } }
        | .over => .cannot
  | _ => .cannot

/-- A callback in which client code is running on the bus thread (the calls in Subscriber.cpp:30,
ActionConsumer.cpp:77 and ActionProvider.cpp:36). -/
def clientCode : Cur → Bool
  | .plain => true
  | .providing _ _ => true
  | .answering _ _ (.user _) _ _ => true
  | _ => false

/-- The events (Bus.h:92-186, ActionConsumer.cpp:18-81, ActionProvider.cpp:20-37; see the constructors). -/
inductive Act where
  /-- a bus event caused by a client -/
  | bus (a : Bus.Act)
  /-- the bus thread -/
  | run (c : Bus.Choice)
  /-- the bus thread inside the lambda of `Request` -/
  | lambda
  /-- `CreateActionConsumer` after the creation of publisher `q` and subscriber `s` (Bus.h:154-171) -/
  | consumer (q s : Nat) (topic : Str)
  /-- `CreateActionProvider` after the creation of subscriber `s` and publisher `q` (Bus.h:128-145) -/
  | provider (s q : Nat) (topic : Str) (cb : Option Nat)
  /-- `ActionProvider::Reset` (ActionProvider.cpp:20-23) -/
  | resetProvider (p : Nat)
  /-- `RequestAsync` up to and including the registration (ActionConsumer.cpp:22-33), callback `k` -/
  | request (c : Nat) (id : Str) (k : Nat) (t : Tree)
  /-- `Request` up to and including the registration in `RequestAsync` (ActionConsumer.cpp:42-54, 33); `onBus`: called
  by the callback running on the bus thread -/
  | begin (c : Nat) (id : Str) (t : Tree) (onBus : Bool)
  /-- the rest of a started `RequestAsync` (ActionConsumer.cpp:35-39); for a blocking `Request` the wait may begin after
  this, which admits schedules where it begins before the message is in the queue (more than the code has) -/
  | send (i : Nat)
  /-- `Respond` (ActionProvider.cpp:25-32) -/
  | respond (p : Nat) (id : Str) (t : Tree)
  /-- the thread in the `n`-th call of `Request` goes on (ActionConsumer.cpp:64-70); spurious wake-ups included -/
  | wait (n : Nat)
  /-- its timeout expires -/
  | timeout (n : Nat)

/-- Register a request (ActionConsumer.cpp:33). Simplified: if the id is that of the callback now running, the assignment
destroys a running `std::function`, which C++ leaves undefined; here the callback goes on. With distinct ids this does not
happen. -/
def register (σ : St) (c : Nat) (x : Cons) (id : Str) (cb : Cb) (t : Tree) (frame : Option Nat) : St :=
  { σ with cons := σ.cons.set c { x with opened := x.opened.insert id cb }
           pending := σ.pending ++ [⟨c, id, t, frame⟩], asked := σ.asked ++ [⟨c, id, cb, t, σ.bus.log.length⟩] }

/-- `Request` returns (ActionConsumer.cpp:70). -/
def finish (f : Frame) : Frame := { f with pc := .done, result := some f.response }

/-- Lift the result of a bus event (no code of its own: the calls of Bus.h:92-186 made from the action classes). -/
def lift (r : Option Bus.St) (k : Bus.St → St) : Next St :=
  match r with
  | none => .cannot
  | some b => .to (k b)

/-- One event (Bus.h:122-172, ActionConsumer.cpp:18-81, ActionProvider.cpp:20-37; see the functions called). -/
def step (σ : St) : Act → Next St
  | .bus a => if clientMay σ a then lift (Bus.step σ.bus a) (fun b => { σ with bus := b }) else .cannot
  | .run c => run σ c
  | .lambda => lambda σ
  | .consumer q s topic =>
    if q < σ.bus.w.np ∧ s < σ.bus.w.ns ∧ (σ.bus.w.pub q).topic = requestTopic topic ∧
        (σ.bus.w.sub s).topic = responseTopic topic ∧ (σ.bus.w.sub s).cb = none ∧
        (σ.bus.w.pub q).active = true ∧ (σ.bus.w.pub q).bus = (σ.bus.w.sub s).home ∧
        s ∈ (σ.bus.w.bus (σ.bus.w.sub s).home).subs ∧ ownedSub σ s = false ∧ ownedPub σ q = false then
      lift (Bus.step σ.bus (.setCb s (some (3 * σ.cons.length + 1))))
        (fun b => { σ with bus := b, cons := σ.cons ++ [⟨topic, s, q, []⟩] })
    else .cannot
  | .provider s q topic cb =>
    if q < σ.bus.w.np ∧ s < σ.bus.w.ns ∧ (σ.bus.w.pub q).topic = responseTopic topic ∧
        (σ.bus.w.sub s).topic = requestTopic topic ∧ (σ.bus.w.sub s).cb = none ∧
        (σ.bus.w.pub q).active = true ∧ (σ.bus.w.pub q).bus = (σ.bus.w.sub s).home ∧
        s ∈ (σ.bus.w.bus (σ.bus.w.sub s).home).subs ∧ ownedSub σ s = false ∧ ownedPub σ q = false then
      lift (Bus.step σ.bus (.setCb s (some (3 * σ.provs.length + 2))))
        (fun b => { σ with bus := b, provs := σ.provs ++ [⟨topic, s, q, cb⟩] })
    else .cannot
  | .resetProvider p => .to { σ with provs := σ.provs.modify p (fun x => { x with cb := none }) }
  | .request c id k t => match σ.cons[c]? with
    | none => .cannot
    | some x => .to (register σ c x id (.user k) t none)
  | .begin c id t onBus => match σ.cons[c]? with
    | none => .cannot
    | some x =>
      if onBus = true ∧ (clientCode σ.cur = false ∨ blocked σ = true) then .cannot
      else
        let n := σ.frames.length
        .to { register σ c x id (.frame n) t (some n) with
              frames := σ.frames ++ [⟨c, id, .sending, true, .empty, none⟩]
              inside := if onBus then some n else σ.inside }
  | .send i => match σ.pending[i]? with
    | none => .cannot
    | some p => match σ.cons[p.cons]? with
      | none => .cannot
      | some x =>
        lift (Bus.step σ.bus (.pubPublish x.pub (envelope (bs "request") p.id p.request)))
          (fun b => { σ with bus := b, pending := σ.pending.eraseIdx i
                             frames := match p.frame with
                               | none => σ.frames
                               | some n => σ.frames.modify n (fun f => { f with pc := .check }) })
  | .respond p id t => match σ.provs[p]? with
    | none => .cannot
    | some x =>
      lift (Bus.step σ.bus (.pubPublish x.pub (envelope (bs "response") id t)))
        (fun b => { σ with bus := b, replied := σ.replied ++ [(p, id, t)] })
  | .wait n => match σ.frames[n]? with
    | none => .cannot
    | some f => match f.pc with
      | .check => .to { σ with frames := σ.frames.set n (if f.waiting then { f with pc := .drowsy } else finish f) }
      | .drowsy => .to { σ with frames := σ.frames.set n { f with pc := .asleep } }
      | .asleep => .to { σ with frames := σ.frames.set n { f with pc := .check } }
      | _ => .cannot
  | .timeout n => match σ.frames[n]? with
    | none => .cannot
    | some f => match f.pc with
      | .asleep => .to { σ with frames := σ.frames.set n (finish f) }
      | _ => .cannot

/-- A fresh hierarchy without actions (Bus.cpp:8-27). -/
def initial (name : Str) : Option St :=
  (Bus.initial name).map (fun b => ⟨b, [], [], [], [], .idle, none, [], [], [], []⟩)

/-- Execute a sequence of events (no code of its own: an interleaving of the events of `Act`, Bus.h:92-186). -/
def exec (σ : St) : List Act → Next St
  | [] => .to σ
  | a :: as => match step σ a with
    | .cannot => .cannot
    | .undefined => .undefined
    | .to σ' => exec σ' as

/-- `RequestAsync` with a null callback (ActionConsumer.cpp:26-29) throws before it does anything; with a callback it is
the event `request`. -/
def requestAsync (σ : St) (c : Nat) (id : Str) (k : Option Nat) (t : Tree) : Except Exn (Next St) :=
  match k with
  | none => .error (.argumentNull (bs "callback"))
  | some k => .ok (step σ (.request c id k t))

end LP.Action
