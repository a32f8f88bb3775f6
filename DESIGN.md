# LampPost formal model: design

The Lean 4 project in `lean/` models the C++ sources of LampPost function by function and proves the
properties listed in `properties.jsonl`. This file was written before the proofs; it is updated when
a proof forces a change.

## Method

* Every definition in `lean/Verif/Model/*` cites the file and lines in `/repo` it models. A
  simplification is stated in the same comment.
* `lean/Verif/Spec/*` holds small specifications that do not call model functions.
* `lean/Verif/Lemma/*` holds helper lemmas.
* `lean/Verif/Prop/*` holds the property theorems, each followed by an `example` meeting its hypotheses.
* C++ outcomes are explicit. A computation ends in `ok value state`, `throw exception state` (state
  changes made before the throw persist, as in C++), `ub` (undefined behaviour: null dereference,
  dangling reference, read past the end, double free) or `fuel` (the recursion bound given to the
  interpreter was too small; "does not terminate" means `fuel` for every bound).
* Strings are byte lists (`List UInt8`), because `std::string` is. `std::map` is a list of key/value
  pairs kept strictly sorted by unsigned bytewise order. `int` is `Int32`, `unsigned int` is reduced
  modulo 2^32, `double` is its 64-bit pattern with IEEE comparison defined on it.
* `substr(pos)` is written `drop`; `Lemma/Substr` shows for each call that the position is not behind the end, where the
  code would throw.

## Trusted base

* The Lean 4 kernel. Theorems depend at most on `propext`, `Classical.choice`, `Quot.sound`; `AXIOMS.md` lists them per theorem.
* The reading of the C++ sources. Nothing is extracted mechanically and no code is run.
* C++ semantics of the standard library as used: `std::map`/`std::list`/`std::string` are functional
  containers, `std::mutex` excludes, `shared_ptr` keeps objects alive as long as a handle exists.
* Third-party libraries are parameters or small assumed contracts:
  * FlatBuffers: writing a table and reading it back gives the same fields, except that a scalar that
    compares equal to its schema default is not stored and reads back as that default (this loses the
    sign of `-0.0`). No verifier runs, so an absent offset field reads back as null.
  * json-c: the tokener is a parameter from text to an optional JSON tree. `json_object_get_int` clamps
    to the 32-bit range, `json_object_get_string` returns a NUL-terminated string, object iteration is in
    insertion order with distinct keys.
  * FlatBuffers bytes of a link message: the link theorems hold for every codec with decode (encode m) = m on the accessor
    view; `Model/Flat` is one, written after the published format and builder (the library is not in /repo), and C129
    proves the contract for it. Misaligned reads are undefined there.
  * ZeroMQ: a multipart message arrives whole, parts in order; `zmq_msg_init` does not fail. For networks
    (C56, C81) connections lose nothing but may deliver in any order and after any delay.
  * dlopen/dlsym, POSIX `stat`, `readdir`, `readlink`, `getcwd`: parameters.
* Memory model: in all layers but Race each C++ statement on shared state is one atomic step, and unsynchronised
  fields are treated as sequentially consistent. The Race layer says when that is justified for the bus layer: its
  step is one access, a race is two conflicting accesses that are enabled at the same time, and C++ guarantees
  sequential consistency for programs without races. C92 lists the members on which clients can cause one; results of
  the other layers about executions with such a race say what happens if every access is atomic. A link has no races; the
  status of the Windows service has one (C124), C90 says what happens if the accesses are atomic.
* Time: a wait with a timeout may end at any moment by the timeout; nothing is said about durations.
* Guaranteed copy elision for `Datagram::operator[]` is assumed (C++14 permits, C++17 requires it).

## Modelled and not modelled

| Source | Modelled | Not modelled |
|---|---|---|
| messages/RawDatagram, Datagram, Data | every function | destruction order of children (unobservable: no side effects) |
| messages/Message | every function; the bytes as well (`Model/Flat`) | |
| data/RawBytes | every function, allocation heap | allocation failure |
| bus/Bus, Publisher, Subscriber, BusParticipant | every function, sequentially (`Model/Bus`) and as interleaved steps (`Model/BusConc`; with several threads in `Start`: `Model/Team`); lock order (`Model/Locks`), data races (`Model/Race`; of message contents `Model/Payload`) and lifetimes (`Model/Life`) separately | weak memory; `GetName` (declared, not defined) |
| bus/ActionProvider, ActionConsumer | every function, the lambda of `Request` line by line | weak memory |
| utilities/AntMatcher, Uuid | every function | quality of `mt19937` (C71 holds for every generator) |
| Filesystem | POSIX branches (`Model/Fs`), Windows branches (`Model/FsWin`) | — |
| plugin/* | every function, OS loader as parameter (Windows branches in `Model/PluginWin`); worker thread as step system | code inside loaded libraries |
| LampPost, main, settings, xnix, osx and windows/Windows.cpp | every function: construction, configuration processing, Start, Stop, destruction, signals (`Model/LampPost`, `Process`, `Signals`, `Main`) | console output |
| log/Log | Write, WriteSynchronized | colours (ignored by the code as well) |
| plugins/link | every function; networks of links | socket options; ZeroMQ itself |
| plugins/sysinfo | every function, on top of the action layer | log output; `Sleep` |
| platformspecific/windows/service | Main, Init, RunLampPost, ReportStatus, ControlHandler, the end of `_tmain`, as three threads (`Model/Service`); Install, Uninstall, `_tmain`'s choice and the text of ReportEvent, over a table of services (`Model/Installer`) | the user interface message, the calls that hand the text to the event log |

## Layers

1. **Base** (`Model/Str`, `Dict`, `Val`, `Out`): strings, maps, values, outcomes.
2. **Node** (`Model/Node`): one RawDatagram object, polymorphic in the child pointer type.
3. **Heap** (`Model/Heap`, `Datagram`, `Wire`, `Json`, `Message`): RawDatagram objects at addresses, recursive
   functions by fuel. `Spec/Tree` gives the tree a datagram denotes; `Rep h S a t` says that address `a`
   denotes `t` using only addresses in `S`. `Model/Cmd`, `Prog`, `Query`: client programs over any number of
   Datagram variables, including received tables and imported JSON; `Spec/Client` is the same language on trees.
4. **Bus** (`Model/Bus`, `BusConc`): API calls as functions; one bus thread (its steps are those of `Run`,
   `wait_for` split into predicate, going to sleep, sleeping) interleaved with any events of other threads, with
   ghost lists of everything published, the fate of each message and every callback invocation.
5. **Locks** (`Model/Locks`): threads reduced to lock programs over a growing bus tree.
6. **Action** (`Model/Action`): consumers, providers, asynchronous and blocking requests as a step system on top
   of layer 4. `send` (building and publishing the request) is one step.
7. **Plugin** (`Model/Plugin`, `Worker`), **Host** (`Model/LampPost`, `Process`): templates, instances, the
   worker thread, configuration processing on the object graph, the main thread with signals at any moment.
8. **Link** (`Model/Link`), **LinkConc** (`Model/LinkConc`: the same instance with its three threads), **Net** (`Model/Net`): one link instance; a network of nodes joined by links. **Remote** (`Model/Remote`): two hosts with actions joined by links.
9. **SysInfo** (`Model/SysInfo`): one instance of that plugin in a hierarchy with any other code.
10. **Service** (`Model/Service`): the Windows service around the process of layer 7; **Signals**, **Main**: the platforms' signals, the program.
11. **Race** (`Model/Race`): any number of threads as lists of locks, unlocks, reads and writes of members of the bus
    layer; functions expand to their accesses, data that is not needed to know which accesses happen is left open.
12. **Life** (`Model/Life`): which objects of the bus layer are alive. `shared_ptr`s are ownership edges, the raw `this`
    of publishers and forwarding functions are plain numbers; function objects carry what they captured and the library
    their code is in. Messages are left out.
13. **Small layers**: `RawBytes`, `Transport`, `Fs`, `Uuid`, `Log`, `Config`.

Messages in layers 4 and up carry the pure tree. This is justified by C01/C02/C39: each `Message` owns a
private deep copy, and a private unshared graph is determined by the tree it denotes.

## Per property

Theorem names are in `MANIFEST.json`; all theorems of property Cnn are called `Cnn_*`. Each line: what is
modelled; how it is proved.

* **C01** `copy` on the heap; induction on the tree denoted, `Rep` of the result in fresh addresses, old addresses unchanged.
* **C02** the command language over several handles; the footprints of distinct variables stay disjoint; frame lemma for all sequences of statements.
* **C03, C04** nested `operator[]` and assignment on the heap; refinement to a pure tree update; induction on the path.
* **C05, C06** path `Get`; specification is "split at slashes, then walk"; induction on the path length.
* **C07–C11** `Node` operations; invariant over operation lists; refinement to a finite map and a sequence.
* **C12, C13** `eq` on the heap refines a structural relation on trees; tree induction; reflexive iff NaN-free. Doubles are specified by the number their bits encode (`Spec/Ieee`).
* **C14–C16** serialise to a table, deserialise to the heap; refinement to pure functions. C16 for arbitrary tables.
* **C17** messages: round trip, equality, unverified buffers undefined, own copy.
* **C18, C19** `ParseJsonObject`; refinement to a pure function; tree induction. `C19_survives` (`Prop/Imported`): a
  document without a NaN (`Spec/Imported.JsonNaN`) has nothing a message loses, by induction on `JsonMeans`; only this
  direction, because a NaN may be overwritten by a key that is equal up to its first NUL.
* **C20** print; by sortedness of maps.
* **C21, C22** the command language; every variable denotes a finite tree and no object has two parents, for all programs.
* **C23** `copy` runs out of fuel for every fuel exactly when the graph is cyclic.
* **C24, C25** sender strings; list lemmas.
* **C26, C27** RawBytes histories over arrays that are live or freed; ownership invariant.
* **C28–C33, C35, C40** `BusConc`: invariants over every event sequence; bounds on the bus thread's own steps.
* **C34** number of stops before a start.
* **C36, C43, C44** sequential bus API.
* **C37, C38** `distribute` against a relational specification of order and reachability; `C38_bus_thread_distributes` ties the step system to it.
* **C39** the chain of copies from `Publish` to a callback, on the heap.
* **C41, C42, C73** lock programs; rank argument for the absence of deadlock, stuck-state arguments for the deadlocks.
* **C45–C47, C49, C50** action step system; history and tracking invariants.
* **C48** invariants on everything said under one id, plus the liveness of C29 twice.
* **C51–C53** frames of blocking requests; a frame that has returned makes the lambda undefined.
* **C54, C55, C79, C80** one link: callback, worker loop, framing, opening and closing sockets.
* **C82, C83** one link under concurrency (`Model/LinkConc`): bus thread, worker and owner step by step; an invariant ties held mutexes, live pointers and the calls made so far, a measure on program counters gives termination. `Prop/LinkSend` shows C54 there too: what was sent together with what the callback has still to send is constant along all steps.
* **C56, C81** networks: each copy of a message carries its route; on trees routes are determined by their ends and finite; on cycles there is always work left.
* **C57–C61, C75** plugin templates with the OS loader as a parameter; call log equations; ledger of library handles.
* **C62** owner and worker thread of a plugin instance as a step system.
* **C63, C76–C78** the host's `Start` on the object graph.
* **C64, C65** process step system with signals at every point.
* **C84–C86** one SysInfo instance (`Model/SysInfo`) on the action step system: what other code does is any event of that system that does not use the plugin's private objects, the plugin's own statements are its lambdas line by line. Executions project to executions of the action layer, so C48 applies; C84 adds the bookkeeping of requests and responses; after destruction the lambda is undefined (C85).
* **C87** path `Get` of C05.
* **C88–C90** the Windows service: its thread, the host thread (the step system of C65) and the control handler; invariants over every interleaving. C88 and C89 reuse C65 and C33; C90 is an invariant on the list of reports. What is assumed about Windows is in the header of `Model/Service`; the data race on `mStatus` is given the meaning of an interleaving.
* **C91–C93** `Model/Race`: one invariant for all policies (which mutexes are held at which instruction, in the style of
  a lock-set analysis, proved for all threads and programs); races are excluded because a mutex has one owner, the
  answer of `Request` by an invariant on its atomic flag; the converse directions by executions. A policy says which
  calls clients make after a set-up phase in which everything is allowed.
* **C66–C68, C74** path strings, directory listing, fixed buffers.
* **C94, C95** the Windows branches; bytes that were never written are a parameter and the theorems hold for all its values.
* **C96** `LoadTemplates` over the directory listings of C68 and the files of C60; induction on the list of files.
* **C97** `InstantiateTemplate` against lookups in the bus hierarchy before and after.
* **C105** `~LampPost` and `~PluginManager` on top of C59, C61 and C78; the first template that fails decides.
* **C106** `Model/PluginWin` shares `useLibrary` with `Model/Plugin`; the file name test is proved equivalent to a description by
  concatenation; definedness of `LoadTemplates` by induction over the search paths, quantified over the unwritten bytes.
* **C98** `Teardown`; `Detach` as a sequence of events of the bus layer, then the invariant of C32 for every continuation.
* **C107** `Model/Signals`: dispositions per platform around the process of C65; a refinement to that process plus a count of arrivals.
* **C108** `Model/Main`: arguments, constructor, `Start`, static destruction; uses C78, C96 and C105. "Nothing is shut down" is an
  invariant on the events of loading and configuring.
* **C109** counts instances in the templates against the events (invariant of loading and configuring, names through the children
  of the root bus), then the events of unloading; the order is a statement on every beginning of the events.
* **C99–C104** `Model/Life`: one invariant on the ownership graph for every sequence of calls and destructors; C99 and C101
  by induction on the order of creation; C101 and C102 by what no step can change; C103 by the invariant that no live
  object contains code of a closed library.
* **C110** the same model: no call can be made on the private subscriber of an action, so nothing changes it; where code comes
  from by induction on the calls. The calls SysInfo and Link make are examples.
* **C111** `Model/Payload`: the heap of C01–C16 shared by threads, the queue under its mutex. The parts reachable from the
  variables of different owners stay disjoint (the frame property behind C02, applied to every owner at once). A step is
  taken to touch everything reachable from the variables it names, which is more than it reads or writes.
* **C112** what `shared_ptr` destroys is the least set closed under "no variable and only destroyed objects refer to it", over both
  containers of an object; equal to what no variable shows, because edges lead to later objects and the inactive container is
  empty (invariant of C21). The atomic use count itself is not modelled.
* **C113** the world of the manager after the configuration was read is a reachable state of the bus layer (induction on the
  manager operations a configuration causes), with every bus but the root running; then C29 and C39, whose hypotheses are
  shown to persist as long as nothing stops or detaches a bus. What instances do to the bus during loading is left out.
* **C114** `Model/Overload` models C++14 overload resolution for these overloads (ranks of conversion sequences, a unique best
  overload or no compilation); the table of results is proved from the ranks, and the effect of every assignment and declaration
  by the document semantics of C03/C21. Argument types beyond those listed there (e.g. rvalue-only classes) are not considered.
* **C115** the null pointer leaves the invariant of C21, whose command language does not contain it; effects by evaluation on any
  reachable state, copying of enclosing datagrams by induction on the recursion of `Copy`.
* **C116** `Model/Remote` is two copies of the action layer of C45-C48 with the callbacks and receiving threads of two links
  between them; the course of one request is an invariant of every step of either host and of the link, progress is C29 on each
  host. ZMQ is assumed to deliver what was sent, in any order.
* **C117** the reasons for an exception are stated with reading calls only (`Spec/Exceptions`); both directions by induction on the
  chain of `operator[]` over the document semantics. The class hierarchy is `Model/Exceptions`; messages (`what()`) are not modelled.
* **C118** an exception out of a callback as a step of the bus thread; what stays, what is lost and who misses out are read off the log
  (`recipients`, `received`) for every later execution. The complete reception after a restart combines C29 from the state after the exception with
  the fact that nothing delivered later has a number taken up before. Null datagram callbacks are a set of callback numbers that always throw
  (`Doomed`); the bound by the number of `Start` calls is an invariant of the execution. What becomes of the exception above
  `Bus::Start` is C105 and C108.
* **C119** the statements of several threads, interleaved; a thread's history is what it executed and the documents it copied from others
  (`Spec/Interleave`). By the simulation with documents (C03), both runs give the thread the documents its history alone gives. Statements
  are atomic here; that they may be is C111 (no two threads ever touch a common object). Handles to parts that are kept across
  statements are in C111, not here.
* **C120** consequences of the bus invariant (deliveries are logged by non-decreasing number) for pairs of subscribers; the numbers are
  places in the list of published messages, which only grows at the end.
* **C121** the live-subscriber invariant of C29 started at the creation of the subscriber, with a second invariant (`FreshInv`) that
  bounds what it receives from below. Nothing is taken up before `Start`, so that C29 from there gives the claim on early messages.
* **C122** unique readability of the printed text (`Lemma/Print`), by induction on the document: the first letter tells the kind, and each
  part is followed by a letter it cannot contain. Doubles are excluded: their text is a parameter of the model, and six digits do not
  identify a double anyway. Messages (`Prop/MessagePrint`): the same argument for the sender, which ends at the first blank, and the topic.
* **C123** the service program run as an installer, over a small model of the table of services (assumptions about Windows are listed in
  `Model/Installer`). Each run is analysed by cases; `C123_history` is an induction over any number of runs, against a specification
  (`history`) that knows only requests and paths. `C123_started_other` is the negative result on unquoted paths.
* **C124** the step systems of C82 (link) and C88 (service) with the accesses of each place of each thread listed (`Model/Access`); a race
  is two conflicting ones in one state (`Spec/Access`). The link: by the lock invariant of C82, and because the callback, which reads
  pointers outside their mutex, is over once `Deinitialize` has removed the subscriber. The service: by what precedes what. The lists are complete for the state of
  the two models (`Prop/AccessFrame`): no step of a thread changes a member that is not listed as written there, and no step of the
  link's threads depends on a member that is not listed as accessed there. The handle of the stop event is not part of that state.
* **C125** end to end over C60/C96 (search), C63 (configuration), C108 (program), C109 (instances), C113 (buses). `Spec/Configured`: `Asks` gives
  the plugin entries of all files in order, `Expected` (C63) what they should come to. `C125_configured`: induction over the files with the
  invariants `Serving` (numbering) and `Kept` (makers and instances in order, created = started). `C125_program`: from the file system and the
  arguments to the exit status, for every behaviour `run` of the bus. `Installed` lists what is assumed of the plugin files; each assumption is
  necessary in the sense of C58 (digits), C60 (null info), C63/C109 (exceptions, null instances).
* **C126** `Model/Grid`: one full concurrent bus (`Model/BusConc`) per host, a link's callback sends when the bus calls its subscriber, a receiving
  link calls `Publish`. `C126_hosts_refine_network`: simulation relation `Mirror` to the plain network of C56 (pending there = published here and
  not yet handed to the link's subscriber; in transit there = sent, being published or lost here), so C56/C81 carry over to what the *subscribers*
  of the hosts hear (`C126_tree_heard_once`, `..._published_once`, `C126_cycle_never_settles`, `C126_hub_does_not_relay`), with C29/C30 for
  the bus of each host. `C126_tree_can_settle`: the messages still missing on the hosts decrease; each bus thread reaches idleness by the measures of
  C33. Assumed: ZMQ neither loses nor duplicates; the callback sends when it begins. The exactly-once half needs the links in operation
  throughout (`Up`) and no throwing callback.
* **C127** on top of C126, for executions in which links receive in order (`InOrder` in `Spec/GridOrder`: the oldest message of the connection, and not
  before the previous `Publish` of the link has returned; ZMQ's order per connection is assumed, Link.cpp:153-185 is one thread). `Line`: along every
  connection, what has arrived, is being published and is on its way is in this order a subsequence of what was sent, with a count of the lost ones.
  `C127_order_kept`, `C127_no_gaps` by induction on journeys, for three comparisons of lists (`Fit`: subsequence, prefix, equality).
  `C127_causes_first`: invariant `Past` on what the two ends of a connection had published before a message that came over it, then induction on the
  journey; journeys are joined with `onwards`, where turning back undoes a hop. `C127_no_common_order`: a run of three hosts in a row.
* **C128** `Spec/Endless`: executions without end of the system of C28; the only fairness is that the bus thread takes infinitely many steps. Proof
  (`Lemma/Endless`): a rank in a lexicographic order (messages before this one; what is left of the hierarchy, not counting subscribers, or of the way
  to the queue; subscribers left on the bus in hand) that every step of the bus thread lowers and nothing but `CreateChildBus` raises; then C29's
  invariant. `C128_busy_for_ever`: an endless execution given by what happens next (`Lemma/Spin`), with an invariant of eight positions. The depth of
  the C++ stack is not modelled.
* **C129** `Model/Flat`: the accessors on arbitrary bytes, where an access outside the buffer and a misaligned one are undefined, and the builder (buffer growing at the
  front, padding, shared vtables). Round trip (`Lemma/FlatBytes` to `FlatRound`): a place is counted from the end, so that everything written stays
  readable whatever is put in front that keeps the length a multiple of the largest alignment used; induction on the tables serialisation
  produces. So what the code writes is also read with aligned accesses only; `C129_misaligned` is a family of buffers for which it is not so. Termination (`Lemma/FlatRead`): offsets are unsigned, so every
  table lies behind the one referring to it; the same induction bounds the nesting by the size and shows that bytes behind do not matter.
  `C129_blow_up`: a list with the same table twice, `k` levels deep (`Lemma/FlatBomb`).
  `C129_same_bytes` (`Lemma/FlatSame`): the tables as a function of the document; two documents have the same tables iff `Spec/Sent` makes them equal.
  `C129_rewritten`: what arrives (`wire`, C14) is a fixed point of both maps, and they differ on empty containers only.
  `C129_size`, `C129_arrives` (`Lemma/FlatSize`): every builder operation lengthens the buffer by what it writes plus bounded padding.
* **C130** `Spec/Answered`: executions without end of the actions of C45-C53. Fairness: the bus thread takes infinitely many steps, nobody stays in
  `Publish` or `RequestAsync` for ever, and for the blocking call the caller goes on or its timeout expires. Every event is one event of the bus
  (`step_image`), so that C128 gives delivery (`heard`); the invariant `Course` of C48 (every message bearing the id is the request or the provider's
  answer) holds at each moment; C45 turns the first response into the one call of the callback. For the blocking call: when the bus thread goes on
  after the answer it has executed lines 56-60, so `waiting` is false (`told_by_run`), and from then on each step of the caller brings it closer to
  its end (`far_step`). No hypothesis excludes the timeout: if it comes before the answer, the answer is undefined behaviour (C52), and an `Endless`
  execution has none. Non-vacuity: finite executions (`sample`) continued by a bus thread that looks at an empty queue for ever.
* **C131** `Model/Team`: the bus of C28-C35 with a list of threads that call `Start` of the root. The steps in `Run` are those of `Model/BusConc`;
  what keeps the threads apart is `mNotifierMutex` only: an owner, given up in `wait_for` and on leaving `Run`, also by an exception. That a thread
  in `Run` is the owner is proved, not built in. Proof: with the owner taken for the only bus thread (or none), every event is an event of one bus
  thread, a change between places of `Run` with nothing taken over, or the setting of the flag at any place; the invariants of C28-C30 and of the
  stable subscriber (C29) survive all of these. Leaving: a measure summed over the threads. `Start` in a callback locks a `std::mutex` its thread
  owns: undefined.
* **C132** endless executions of `Model/Grid` (`Spec/GridEndless`: `Operating` = links up and in order, root buses running, no throwing callbacks, bus
  threads scheduled fairly, calls of `Publish` and messages on their way not put off for ever). `C132_travels`: induction on the journey; each hop is
  the order result of C127 plus the eventual delivery of C130's bus lemma (`Lemma/GridTravel`). `C132_heard_everywhere`: every pair of hosts of a
  connected network has a journey. `C132_comes_to_rest`: what is published is bounded (C126), so it is constant from some moment on; then everything
  is delivered and the queues are empty. `C132_floods`: journeys of any length exist on a cycle and give distinct messages. `C132_goes_on`: a round-robin
  scheduler (`Lemma/GridSchedule`), which also gives the witnesses for the hypotheses of the others.
* **C133** endless executions of `Model/Remote` (`Spec/RemoteEndless`: fairness on both hosts, `Prompt` = no message on its way is put off for ever,
  `Served` = both ends registered on live buses, links up, nobody interferes). Each host alone is an endless execution of C130's kind (`Lemma/RemoteEndless`,
  `Endless.host`); the steps of the other host appear in it as resets of a provider that does not exist, which change nothing. The request is heard by the
  link (C130's bus lemma), crosses by C116's `Course.pass` and `Prompt`, is shown, answered, and comes back the same way (`C133_shown`, `C133_answered`);
  `C133_blocking` adds C130's argument for the waiting caller. The witnesses are finite runs of both hosts extended by bus threads that look at empty
  queues for ever (`Lemma/RemotePlay`), one with other traffic on the way and one with a blocking call.
* **C134** `Model/LinkLife` models `Initialize`, `Deinitialize`, destruction and the lambda of a link with ZMQ objects that have identities, so that a
  leaked one differs from a closed one; the bus functions are those of `Model/Bus`. Which histories are allowed is said in `Spec/LinkLife` from the calls
  alone. Invariants: pointers lead to open sockets of the present context, two open sockets never have the same address, the link's subscribers number as
  many as the surplus of `Initialize`, and the handle is one of them exactly after `Initialize`. Proved by induction over histories: `C134_defined_iff`,
  `C134_copies`, `C134_silent`, `C134_leak`, `C134_deaf` (an open socket bound to the address that no pointer leads to stays for ever), `C134_as_new`
  (alternating calls). One thread makes the calls; `zmq_close` frees the address at once.
* **C135** registration queries (`Spec/Registered`, `Lemma/Registered`, `Prop/Registered`): the lists of managed objects are an invariant of the
  history, "created on this bus and not deleted through it", preserved by every step of the interleaved bus (`Model/Bus`).
* **C136** the SysInfo action across hosts (`Model/SysRemote`, `Spec/SysRemote`, `Lemma/SysRemote`, `Prop/SysRemote`): the two hosts of `Model/Remote` with
  the plugin code of `Model/SysInfo` on one of them. Every event refines one of `Model/Remote` (`under_step`), fairness, promptness and honesty are carried
  over, so C133 applies: `C136_answered`, `C136_blocking`. `C136_unloaded`: from such an execution it follows that the instance was not destroyed when the
  request was made; `C136_unloaded_witness` is an execution that ends in undefined behaviour instead. Same simplifications as C133 and C84.
* **C137** any history of calls of a SysInfo instance (`Model/SysLife`, `Spec/SysLife`, `Lemma/SysLife`, `Lemma/SysHistory`, `Prop/SysLife`): the bus
  functions are those of `Model/Bus`, the two lambdas are callbacks number 0 and 1, undefined behaviour is an outcome of its own. The specification
  counts calls in the history. Proved by induction over histories with an invariant that counts the subscribers with each callback:
  `C137_defined_iff`, `C137_logged`, `C137_answered`, `C137_other`, `C137_throws`, `C137_leak`, `C137_beat`. Simplified: the callbacks run in one
  step, responses are recorded and not sent, the configuration entry "send-datagram" does not change and is a boolean or missing.
* **C138** `InCallback` (`Spec/Returned`) says that the callback invoked last has not returned. An invariant of every reachable state of
  layer 4 says which mutex the bus thread then holds (`Lemma/Returned`); the end of the wait is an execution of the bus thread alone. Setting a
  callback and detaching are taken to be atomic, although C92 shows that they race. Several threads in `Start` (C131) are left out.
* **C139** `Model/JsonLib`: the import with the blocks of json-c (tokener, document) next to the heap of datagrams; a use of
  a block that does not exist is undefined. `C139_same_datagram` relates it to the import of C18, `C139_never_released` is an
  induction on the sequence of imports. Simplifications: a document is one block, `json_tokener_new_ex` does not fail.
* **C140** Layer 6. `Spec/OpenRequests` counts the calls of a request's callback that have begun, thrown or are running; an invariant
  (`Lemma/OpenRequests`) ties the entry in `mOpenRequests` to these numbers. Distinct ids and sorted keys give the whole table and its size.
  `C140_open_exactly` says the same by responses delivered, from the invariant of C45.
* **C141** Layer 6, without the assumption of distinct ids. `C141_overwritten`: after an event that registers another callback under the
  id, the old callback is not in the table, which is preserved by every event that does not register it again, and only callbacks
  in the table are called. `C141_blocking`: the lambda of a blocking call is registered once, and only it writes `waiting` and
  `response`; so these keep their initial values, and
  `C141_only_timeout` says which event ends the call. `C141_last`: the callback called is the one registered last under the id (`Spec/Overwritten`), by an invariant on the table.
  Simplification: a callback that is replaced while it runs goes on (in C++ its closure is
  destroyed, which is undefined); the claim says nothing more about it than that it is not called again.
* **C69** configuration equality.
* **C70, C71** hex formatting of 32-bit draws; pigeonhole.
* **C72** logging threads as interleaved lock programs over an output.

No property is left partial. Where a property needs an assumption, it is a hypothesis of the theorem and an
`example` beside it shows it can be met.

## Findings: where the code violates a reasonable claim

Each is a theorem (negation with a witness, or an exact characterisation).

* Datagrams: a string literal assigned is stored as `true`, one given to the constructor can never be read (C114); a null data
  pointer makes every later copy undefined (C115); `==` is not reflexive on NaN (C13); empty containers and values of other types are lost in
  serialisation (C14, C15); JSON `null`, `[]`, `{}` all import as Empty (C18), so `"plugins": []` makes Start throw
  (C63); `operator[](index)` destroys the content and then throws (C10); keys containing `/` are unreachable by path
  (C06); the index in an IndexOutOfBoundsException is negative from 2^31 on (C117); unverified buffers are undefined behaviour (C16, C17).
* RawBytes: a by-value copy ends in a double delete (C27).
* Bus: a Stop before Start is lost (C34); a Stop in the middle of a batch drops the rest of the batch, and a Stop
  between the last check of the flag and the drain discards the whole queue (C28); CreateChildBus on a detached bus
  throws ArgumentNull for a non-null argument (C36); DeleteSubscriber on the wrong bus (C43) and of a null pointer
  (`deleteSubscriber none` is `ub`); callbacks that manage subscribers of their own bus or child buses above it
  deadlock (C41, C73); an exception in a callback leaves Run and loses the rest of the batch (C28, C50, C118); a null datagram callback is such a callback (C118).
* Actions: the provider gets the envelope (C49); a malformed invocationId throws out of Run (C50); a response after a
  timeout is undefined behaviour, and even a timely one can be (C52: `notify_one` on a dead condition variable); a
  Request on the bus thread always times out (C53); a request callback that throws stays registered and can run again
  (C45); providers and consumers are never destroyed, with everything their callbacks have captured (C101); requests without a response are kept for ever, also after a timeout (C140); a request whose invocation id is drawn again before it is answered loses its callback, and a blocking one then always times out (C141); `mOpenRequests` is accessed
  without a lock (C92).
* Data races (C92): creating an action provider or consumer while the bus runs (the subscriber is listed before it gets
  its callback), changing a callback, deleting a publisher while it publishes, detaching a bus while it publishes, two
  requests on one consumer or one while a response arrives, resetting a provider while it serves, a request that gives
  up while the answer is written.
* Lifetimes: a publisher, consumer or provider that outlives its bus dereferences a dangling `this` (C99); a plugin that
  leaves a subscriber or publisher behind makes the destruction of the host's bus undefined (C102), one that leaves an
  action provider does not, only because that leaks; but then every request is undefined, and there is no way to remove a
  provider (C110), so that SysInfo, or any plugin with an action, cannot be unloaded while the bus runs.
* Plugins: names of different templates collide (C58); names are never free again and a failed creation blocks the
  template or leaves a null pointer (C75); a throwing Deinitialize terminates the process (C59); a second library with
  the same identifier leaks the first handle (C61), as happens when a plugin is found in two search paths (C96); Start twice, or a plugin clearing `mShouldRun`, terminates (C62).
* Host: IsStopped is never true (C64); signals are lost or undefined outside a window (C65); a second Start (C76); an
  exception from a configuration file skips Teardown (C77), which the destructor makes up for; a throwing Deinitialize
  makes Start throw and then ends the process when the host is destroyed (C105); Start returns with the bus alive (C105).
* Links: rings never come to rest (C56); a server does not relay between its clients (C81); only the head of the
  sender path is checked (C54).
* SysInfo: the action provider survives the instance, a later request is undefined behaviour (C85); any message on
  `/sysinfo` that is not a string ends `Run` of the root bus (C86).
* Windows plugins: a 64-bit build loads no plugin, since the exports are looked up under their 32-bit names; without a directory
  `lib` in the working directory `LoadTemplates` reads unwritten memory (C106).
* Program: a second Ctrl-C on Windows and any signal on macOS end the process without unloading plugins (C107); an exception out of
  `Start` leaves the plugins initialised, since `main` rethrows and the global host is never destroyed (C108); search paths in a
  configuration file are not read (C108).
* Windows service: a stop control in the first moments is lost and the service hangs (C88); if the host ends by itself
  the service goes on reporting RUNNING, never ends, and the next stop control is undefined (C89); STOPPED is reported
  before the host is stopped, so that the process may end and destroy the host under its thread, or, if the handler is
  slow, it is never reported at all (C90), nor is anything if the control handler cannot be registered (C90). The service is registered with its path unquoted, so that a path with a blank can start another
  program, and cut off after 259 characters; its status is raced on in every stop (C124); installing again does not move it; the exit code tells nothing (C123).
* Received bytes are not verified: short or damaged payloads are undefined behaviour as soon as a link gets them, and a few
  kilobytes can make it create millions of objects (C129, C55, C17).
* Several threads in `Start` (C131): a `Stop` is undone by a `Start` of another thread that comes before the first thread looks at the flag again (it
  looks at least every wait period, and after each batch): the first thread does not return. `Start` of the root inside a callback is undefined
  behaviour.
* Cycles of links (C132): with links up and everything scheduled fairly, one published message makes the number of publications grow without bound. The
  check for a link's own name in the sender (Link.cpp:75) only keeps a message from going straight back.
* `Link::Initialize` called twice without `Deinitialize` in between (C134): the second wildcard subscriber is added to the first, so every message is sent
  twice, for ever; the first context and its sockets are never closed and keep the server's ports, so that the link is not reachable any more, not even
  after `Deinitialize` and another `Initialize`. `Deinitialize` twice, or without `Initialize`, calls a member function through a null pointer.
  Destroying a link that was not deinitialised leaves its lambda on the bus, and the next message uses the destroyed object.
* SysInfo: `Deinitialize` keeps the action provider (SysInfo.cpp:61-68), so any other host that is joined by links can cause undefined behaviour in a host
  whose SysInfo plugin has been unloaded by requesting "/sysinfoaction" (C136).
* SysInfo: since `Deinitialize` keeps the action provider, an instance that is deinitialised and initialised again answers every request twice, then three
  times and so on, and one subscriber and one publisher are left on the bus each time; a null publisher is used if `Run` goes on after `Deinitialize`
  (C137).
* Bus: `Stop`, `Detach`, `SetMessageCallback` and `SetDatagramCallback` return while the callback they are meant to silence may still be running;
  only `DeleteSubscriber` on the right bus waits for it (C138).
* JSON import: neither `json_tokener_free` nor `json_object_put` is called anywhere, so every import leaks its tokener and
  its document (C139).
* Utilities: at most 2^32 UUIDs, missing zero padding, the fourth group is never `bfff` (C70, C71); the Directory
  filter lists nothing, the File filter also lists directories (C68); on Windows a missing path is a directory and
  listing it invents names (C94), and the executable's path comes with the rest of its buffer (C95); a failed readlink reads an uninitialised buffer
  (C74); configuration equality is asymmetric or reads past the end (C69).

## Mutation testing

`seeded/LOG.jsonl` records wrong versions of the model. `tools/mutate.py` applies each to a scratch copy, replaces
every proof that fails by `sorry`, and lists the property theorems that lost their proof through it.

