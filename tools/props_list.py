# ---------------------------------------------------------------- datagrams
p("A copied datagram is a faithful deep copy",
  "Copying a datagram (Copy(), the Datagram copy constructor, Datagram assignment) yields a datagram with exactly the same content at every nesting level, leaves every pre-existing datagram unchanged, and the copy shares no sub-datagram with anything that existed before.",
  "every finite datagram graph (any depth, width, sharing) without null children or null values, and every surrounding program state",
  "Depth, width and aliasing patterns are unbounded; a test compares a few sample trees and cannot see sharing that only later mutation would reveal.",
  [RD+":RawDatagram::Copy", DG+":Datagram::Datagram(const Datagram&)", DH+":Datagram::operator=(const Datagram&)"])
p("Mutating a copy never shows through the original, and vice versa",
  "After a datagram has been copied, any sequence of Datagram API calls made through handles obtained from one of the two leaves every observation of the other unchanged.",
  "every datagram and every finite sequence of indexing, assignment, removal, clearing and copying operations on either side",
  "Quantifies over all later operation histories.",
  [RD+":RawDatagram::Copy", DH+":Datagram::operator[]", DH+":Datagram::operator="])
p("A nested write is read back by the matching path",
  "After d[k1][k2]...[kn] = v, Get<T>(\"k1/k2/.../kn\", default) on d returns v for the type T of v; this holds whatever d held before, including when some intermediate entry was a value or a list.",
  "every prior datagram content, every non-empty key sequence whose keys are non-empty and contain no '/', every value",
  "Unbounded nesting depth and arbitrary prior content.",
  [DH+":Datagram::operator[](std::string)", RD+":RawDatagram::Get(const std::string&)", RH+":RawDatagram::Get(std::string path, DataType defaultValue)"])
p("A nested write disturbs nothing off its path",
  "After d[k1]...[kn] = v, every key path that leaves the written path at some key (i.e. is neither a prefix nor an extension of it) still leads to what it led to before, as long as the containers along the written path already were dictionaries.",
  "every datagram, every written path, every other path that diverges from it",
  "All pairs of paths in all trees.",
  [DH+":Datagram::operator[](std::string)", RD+":RawDatagram::Get(const std::string&)"])
p("Path lookup is total, pure and exact",
  "Get<T>(path, default) never throws and never changes the datagram; it returns the stored value exactly when the '/'-separated path leads through dictionaries to a value of exactly type T, and the default otherwise.",
  "every datagram without null children, every path string, every default, every requested type",
  "All strings as paths (empty, leading, doubled, trailing slashes) against all trees.",
  [RH+":RawDatagram::Get(std::string path, DataType defaultValue)"])
p("Path syntax: trailing slash is ignored, keys containing a slash are unreachable",
  "For every datagram, Get<T>(p + \"/\") equals Get<T>(p) when p is non-empty and does not end in '/', and no path makes Get descend into an entry whose key contains '/'.",
  "every datagram and every path",
  "Universally quantified over paths and keys.",
  [RH+":RawDatagram::Get(std::string path, DataType defaultValue)"])
p("A datagram is always in exactly one representation",
  "After any sequence of operations, a datagram reports exactly one of Empty, List, Dictionary, Value, and only that representation holds content: KeyExists is false unless it is a Dictionary, Get<T>() throws unless it is a Value, Add/SetValue/operator[] discard the previous representation completely.",
  "every finite sequence of calls on one RawDatagram object, whatever the children are",
  "Invariant over all operation histories.",
  [RH+":class RawDatagram", RD+":RawDatagram::Get", RD+":RawDatagram::Add", RD+":RawDatagram::operator="])
p("A dictionary datagram behaves as a finite map in any history",
  "Through any sequence of d[k] = x, d[k] reads, Remove(k), Clear, KeyExists and GetCount on a dictionary, the observable results are those of a mathematical finite map: a read returns the last value written and not removed, Remove of a missing key throws KeyNotFoundException carrying that key and changes nothing, and GetCount is the number of distinct keys.",
  "every operation history and every key set",
  "Unbounded histories and key sets.",
  [RD+":RawDatagram::Get(const std::string&)", RD+":RawDatagram::Remove(std::string)", RD+":RawDatagram::KeyExists", RD+":RawDatagram::GetCount", RD+":RawDatagram::Clear"])
p("A list datagram behaves as a sequence in any history",
  "Through any sequence of Add, operator[](i), Remove(i), Clear and GetCount on a list, the observable results are those of a sequence: Add appends, index reads the i-th element, Remove(i) deletes exactly the i-th element and shifts the later ones, and an index >= count throws IndexOutOfBoundsException and leaves the list unchanged.",
  "every operation history and index",
  "Unbounded histories, sizes and indices.",
  [RD+":RawDatagram::Get(unsigned int)", RD+":RawDatagram::Add", RD+":RawDatagram::Remove(unsigned int)"])
p("Wrong-kind operations throw without side effects, indexing converts destructively",
  "Remove, GetCount and Clear on a datagram of the wrong kind throw InvalidOperationException and leave it unchanged; operator[](key) on a non-dictionary turns it into a one-entry dictionary with an Empty entry, discarding its content; operator[](index) on a non-list discards its content, turns it into an empty list and throws IndexOutOfBoundsException.",
  "every datagram of every kind, every key and index",
  "All states times all arguments, including the state left behind by an exception.",
  [RD+":RawDatagram::Remove", RD+":RawDatagram::GetCount", RD+":RawDatagram::Clear", RD+":RawDatagram::Get"])
p("GetCount is exact up to 2^32 elements",
  "GetCount returns the number of elements modulo 2^32, hence the exact number whenever there are fewer than 2^32.",
  "every list or dictionary size",
  "Sizes around 2^31 and 2^32 are not testable.",
  [RD+":RawDatagram::GetCount"])
p("Datagram equality is structural with IEEE comparison of doubles",
  "d1 == d2 is true exactly when both have the same kind and, recursively, equal values of the same type, element-wise equal lists of the same length, or dictionaries with the same keys and equal entries; doubles compare as IEEE-754 (NaN differs from everything, -0 equals +0). It never depends on insertion order.",
  "every pair of finite datagrams without null children",
  "All pairs of trees.",
  [RD+":RawDatagram::operator==", "include/lamppost/messages/Data.h:Data::Equals"])
p("Datagram equality is symmetric and transitive, and reflexive exactly off NaN",
  "On finite datagrams without null parts == is symmetric and transitive; d == d holds if and only if d contains no NaN.",
  "every datagram, pair and triple",
  "All triples of trees.",
  [RD+":RawDatagram::operator==", RD+":RawDatagram::operator!="])
p("Serialisation round trip",
  "DeserializeFromStructure(SerializeToStructure(d)) yields d with (a) values of types other than string, int, double and bool replaced by Empty, (b) empty lists and empty dictionaries replaced by Empty, (c) a negative zero replaced by +0, and is otherwise identical at every level. In particular it compares equal to d exactly when d has no NaN, no unsupported value type and no empty container.",
  "every finite datagram without null children",
  "All trees; the lossy corners (empty containers, foreign value types) are exactly what samples miss.",
  [RD+":RawDatagram::SerializeToStructure", RD+":RawDatagram::DeserializeFromStructure", "schemas/FBDatagram.fbs"])
p("The round-trip claim is false for cleared containers",
  "There are datagrams (for instance a list after Clear()) that do not compare equal to their own serialisation round trip.",
  "existence; refutes the naive universal round-trip claim",
  "A counterexample to a universal claim; the project's tests never serialise an empty container.",
  [RD+":RawDatagram::DeserializeFromStructure"])
p("Deserialisation of arbitrary structures",
  "For every wire structure (not only those produced by the serialiser) DeserializeFromStructure either dereferences a missing string/vector field (undefined behaviour) or returns a well-formed tree; unknown type tags give Empty, and of mismatched key/content vectors only the common length is used, a later duplicate key winning.",
  "every FBDatagram structure, including ones no serialiser produces",
  "Remote peers can send any structure.",
  [RD+":RawDatagram::DeserializeFromStructure"])
p("Message serialisation round trip",
  "Message::Deserialize(m.SerializeToBytes()) has the same sender and topic as m and the round-tripped datagram of m; it compares equal to m exactly when the datagram does.",
  "every message",
  "All messages.",
  [MS+":Message::SerializeToBytes", MS+":Message::Deserialize", MS+":Message::operator=="])
p("JSON import maps every document structurally",
  "DeserializeFromJson yields: Empty for unparsable text, null, [] and {}; a bool/double value for those; an int value clamped to the 32-bit range for numbers; a string cut at its first NUL; a list of the imported elements in order; a dictionary with exactly the imported members.",
  "every JSON document (any nesting) accepted or rejected by the parser",
  "All documents.",
  [RD+":RawDatagram::DeserializeFromJson", RD+":RawDatagram::ParseJsonObject"])
p("JSON import never produces an empty container or a null child",
  "No datagram obtained from DeserializeFromJson contains, at any depth, an empty list, an empty dictionary, a null child or a null value; hence every later Copy, ==, print and serialisation of it terminates without undefined behaviour. If the document has no NaN, what is received after sending the datagram compares equal to it, either way around.",
  "every JSON document",
  "Invariant over all documents at all depths.",
  [RD+":RawDatagram::ParseJsonObject"])
p("Printing is independent of construction history",
  "Two datagrams with the same content print identically whatever the order in which dictionary entries were inserted; dictionary entries are printed in ascending bytewise key order, lists in order, separated by \", \".",
  "every datagram and every insertion order",
  "All permutations of all key sets.",
  [RH+":operator<<(std::ostream&, const RawDatagram&)"])
p("Datagram API use keeps the object graph a forest",
  "Starting from fresh datagrams, any sequence of Datagram-level operations (indexing, assigning values or datagrams, copying, Remove, Clear, adding freshly built children) keeps every datagram's sub-datagram graph finite and acyclic, so Copy, ==, printing and serialisation always terminate without undefined behaviour.",
  "every finite sequence of Datagram API operations",
  "Invariant over histories, including self-referential ones such as d[\"k\"] = d.",
  [DH+":class Datagram", RD+":RawDatagram"])
p("Assigning a part to its whole or the whole to a part is safe",
  "d = d[\"k\"] makes d hold exactly what the entry held before; d[\"k\"] = d makes the entry a copy of the former d (with the entry itself Empty if it did not exist) and never creates a cycle.",
  "every datagram and key",
  "Aliasing between source and destination at any depth.",
  [DH+":Datagram::operator=(const Datagram&)"])
p("Copying a cyclic raw datagram never returns",
  "If a RawDatagram graph contains a cycle reachable through its active representation (possible through raw pointers), Copy() on it does not terminate for any stack bound.",
  "every cyclic graph",
  "Non-termination is not observable by a test.",
  [RD+":RawDatagram::Copy"])
# ---------------------------------------------------------------- messages
p("Sender path push/pop are inverse",
  "For every sender string s and name n: after PrependSender(n), WasSentBySender(n) is true and RemoveSender(n) restores s; for names without '/', WasSentBySender(n) holds exactly when the first '/'-terminated component of the sender path is n.",
  "every sender string and name",
  "All strings.",
  [MS+":Message::PrependSender", MS+":Message::RemoveSender", MS+":Message::WasSentBySender"])
p("RemoveSender touches only a matching head",
  "RemoveSender(n) leaves the sender unchanged unless WasSentBySender(n), in which case exactly the prefix n + \"/\" is removed; topic and datagram never change; a bare sender equal to n (no slash) does not count as sent by n.",
  "every message and name",
  "All strings.",
  [MS+":Message::RemoveSender", MS+":Message::WasSentBySender"])
# ---------------------------------------------------------------- raw bytes
p("RawBytes accumulates exactly the appended bytes",
  "After any construction followed by any sequence of Append calls, GetSize is the total number of bytes and GetContent points to exactly their concatenation in order.",
  "every sequence of appended buffers of any sizes (including empty ones)",
  "Unbounded histories.",
  [RB+":RawBytes::RawBytes", RB+":RawBytes::Append", RB+":RawBytes::GetSize"])
p("RawBytes never leaks, double-frees or reads freed memory",
  "For any history of construct, Append and destroy on any number of RawBytes objects that are never copied by value, every buffer allocated is freed exactly once by the time all objects are destroyed and no freed buffer is accessed; copying a RawBytes by value and destroying both is a double free.",
  "every history over any number of objects",
  "Memory-safety over all histories.",
  [RB+":RawBytes::~RawBytes", RB+":RawBytes::Append", "include/lamppost/data/RawBytes.h:class RawBytes"])
# ---------------------------------------------------------------- bus, concurrent
p("The bus queue neither loses, duplicates nor reorders messages",
  "At every moment of every execution the sequence of published messages equals the messages already taken up for distribution followed by the ones of the current batch and the ones still queued, in publication order, and as long as the root has not been stopped and no callback throws every message taken up is distributed; after a Stop only messages of the batch already drained can be discarded, except that a Stop falling between the bus thread's last check of the flag and its drain makes it drain and discard the whole queue.",
  "every interleaving of any number of publishing threads with the bus thread",
  "All schedules.",
  [BUS+":Bus::Bus", BUS+":Bus::Publish", BUS+":Bus::Run"])
p("Every stable subscriber receives every matching message exactly once, in order",
  "A subscriber that stays registered with a callback, on a bus which like all its ancestors stays running, receives, as long as callbacks return normally, exactly the published messages whose topic matches, each exactly once and in publication order: at any moment what it has received is a prefix of that sequence, and it is the whole sequence whenever the bus is idle with an empty queue.",
  "every interleaving of publishers, the bus thread, and threads creating/deleting other subscribers, publishers and child buses",
  "All schedules and all bus trees.",
  [BUS+":Bus::Run", BUS+":Bus::Distribute", SUB+":Subscriber::Receive"])
p("No spurious deliveries",
  "Every message delivered to a subscriber was published before to this bus hierarchy, and its topic equals the subscriber's topic or the subscriber's topic is \"/**/*\"; no subscriber receives more copies of messages than were published.",
  "every execution",
  "All schedules.",
  [BUS+":Bus::Distribute", AM+":AntMatcher::Matches"])
p("Nothing is delivered after DeleteSubscriber returned",
  "Once DeleteSubscriber(s) on the bus owning s has returned, no callback of s is ever invoked again, whatever happens later, even if a new callback is set on the s object.",
  "every execution and every schedule in which the deletion races with distribution",
  "All schedules.",
  [BH+":Bus::DeleteManagedResource", BUS+":Bus::DeleteSubscriber"])
p("A deleted publisher and a detached bus publish nothing",
  "Publishing through a deleted Publisher, or through any bus after Detach of it or of an ancestor, enqueues nothing and calls no publishing function. Detach, and the destructor of the root, remove the publishing function of the bus and of everything below it and stop everything below it.",
  "every bus tree and execution",
  "All trees and histories.",
  [PUB+":Publisher::Reset", PUB+":Publisher::Publish", BUS+":Bus::Detach", BUS+":Bus::Publish"])
p("Stop takes effect at the next message",
  "After Stop on a root bus, every later delivery belongs to the one message whose distribution was already in progress when Stop was called; the bus thread leaves Run after finitely many of its own steps; messages still queued stay queued (unless the bus thread was just about to drain the queue).",
  "every execution and every moment at which Stop is called",
  "All schedules.",
  [BUS+":Bus::Stop", BUS+":Bus::Run", BUS+":Bus::Distribute"])
p("A Stop issued before Start is lost",
  "Stop followed by Start leaves the bus running: for every number of Stop calls before Start, the bus enters its loop as if none had been issued.",
  "every number of preceding Stop calls and every prior state",
  "Universally quantified; and the race window cannot be hit reliably by a test.",
  [BUS+":Bus::Start", BUS+":Bus::Stop", LP+":LampPost::Stop"])
p("A missed wake-up only delays, never loses, a message",
  "In every reachable state of a running bus with a non-empty queue, the bus thread is never blocked forever: even if the notification was issued between its predicate check and its going to sleep, the pending timeout leads it to take up the whole queue.",
  "every interleaving of publish/notify with the wait loop",
  "The lost-wake-up window is a scheduling race.",
  [BUS+":Bus::Run", BUS+":Bus::Bus"])
p("Child bus names are unique and lookups exact",
  "CreateChildBus(name) fails with ArgumentNullException for the empty name and DuplicateKeyException (carrying the name) if the bus already has a child of that name, changing nothing; otherwise GetChildBus(name) from then on returns that very bus; GetChildBus of a never-created name throws KeyNotFoundException carrying the name.",
  "every history of bus creation on every bus",
  "Unbounded histories.",
  [BUS+":Bus::CreateChildBus", BUS+":Bus::GetChildBus"])
p("A message published anywhere in a bus tree reaches the whole tree",
  "When every bus of a hierarchy is running, distributing one message invokes every subscriber with a matching topic on every bus reachable from the root exactly once, whichever bus of the tree published it, subscribers of a bus before those of its children, children in ascending name order.",
  "every bus tree and message",
  "All trees.",
  [BUS+":Bus::Distribute", BUS+":Bus::CreateChildBus"])
p("A stopped bus cuts off exactly its subtree",
  "Distribution of a message invokes exactly the matching subscribers on buses all of whose ancestors (including themselves) are running.",
  "every bus tree with every combination of running flags",
  "All trees and flag assignments.",
  [BUS+":Bus::Distribute", BUS+":Bus::Stop"])
p("Published messages carry publisher topic, bus name and the datagram as it was",
  "A message published through a Publisher has the publisher's topic, the name of the bus that created the publisher as sender, and the datagram's content at the moment of the call; later changes of the datagram by the publisher, or by any subscriber, do not affect what other subscribers see.",
  "every datagram, publisher, and later history",
  "All histories.",
  [BH+":Bus::CreatePublisher", BUS+":Bus::Publish", SUB+":Subscriber::Subscriber"])
p("Publishing from a callback is safe and delivered later",
  "A message published from inside a subscriber callback never blocks and is distributed only after every message of the batch currently being distributed.",
  "every batch, callback behaviour and bus tree",
  "All schedules.",
  [BUS+":Bus::Run", BUS+":Bus::Distribute"])
p("Managing subscribers of a bus from one of its own callbacks deadlocks",
  "If a callback of a subscriber on bus b calls CreateSubscriber, DeleteSubscriber, ContainsSubscriber, CreateActionProvider or CreateActionConsumer on b, the bus thread can never take another step.",
  "every bus tree, every continuation of every schedule",
  "A deadlock cannot be concluded from a finite run.",
  [BH+":Bus::CreateManagedResource", BUS+":Bus::Distribute"])
p("Bus operations cannot deadlock among themselves",
  "If callbacks call nothing that is known to block them for ever (C41, C73), then no reachable state of any number of threads running the bus loop, CreateChildBus, GetChildBus, Detach, Publish and Create/Delete/Contains of publishers, subscribers, providers and consumers on a growing bus tree is a deadlock: as long as some thread is unfinished some thread can step, and no set of threads waits for each other in a circle.",
  "every bus tree, any number of threads, every schedule",
  "All schedules.",
  [BUS+":Bus::Distribute", BUS+":Bus::Detach", BH+":Bus::CreateManagedResource"])
p("Deleting a subscriber through the wrong bus silences it without unregistering it",
  "DeleteSubscriber(s) called on a bus that does not own s leaves s registered on its own bus (ContainsSubscriber stays true there) but removes its callback, so it receives nothing until a new callback is set.",
  "every world and pair of buses",
  "All states.",
  [BH+":Bus::DeleteManagedResource", SUB+":Subscriber::Reset"])
p("Topic matching is equality or the universal pattern",
  "A subscriber pattern matches a topic exactly when they are the same string or the pattern is \"/**/*\"; no other wildcard has any effect.",
  "every pattern and topic",
  "All strings.",
  [AM+":AntMatcher::Matches", BUS+":Bus::TopicMatchesPattern"])
# ---------------------------------------------------------------- actions
p("An asynchronous request is answered at most once",
  "With distinct invocation ids, the callback given to RequestAsync is invoked at most once unless it throws (then it stays registered, and a further response invokes it again), and if it is, with the content of the first response carrying its invocation id that reaches the consumer; any further response with that id is ignored.",
  "every interleaving of requests and responses of any number of consumers and providers on a topic",
  "All histories.",
  [AC+":ActionConsumer::RequestAsync", AC+":ActionConsumer::ProcessResponse"])
p("Responses never reach another request's callback",
  "A response published with invocation id x invokes only the callback registered under x by the consumer that issued it; responses with unknown ids invoke nothing and change nothing.",
  "every history with any number of consumers sharing the topic",
  "All histories.",
  [AC+":ActionConsumer::ProcessResponse", BH+":Bus::CreateActionConsumer"])
p("A request is registered before it can be answered",
  "RequestAsync stores the callback before publishing, so in no schedule can a response to the request arrive at the consumer while the callback is not yet registered.",
  "every schedule of the bus thread and the requesting thread; invocation ids are distinct (see C141 for equal ones)",
  "All schedules.",
  [AC+":ActionConsumer::RequestAsync"])
p("End-to-end request/response",
  "If one provider that answers every request with f(request) and one consumer share a topic, then after the queue has been worked off every asynchronous request r has had its callback invoked exactly once with exactly f applied to what the provider saw for r.",
  "every sequence of requests, every responder function, every drain order allowed by the bus; invocation ids are distinct (see C141 for equal ones)",
  "Unbounded histories.",
  [BH+":Bus::CreateActionProvider", BH+":Bus::CreateActionConsumer", AP+":ActionProvider::Respond"])
p("The provider callback receives the envelope, not the bare request",
  "The datagram handed to an action provider's callback is a dictionary with exactly the entries \"invocationId\" (the id string) and \"request\" (the datagram passed to RequestAsync); it is never equal to the bare request.",
  "every request datagram",
  "All datagrams.",
  [BH+":Bus::CreateActionProvider", AP+":ActionProvider::ProcessRequest"])
p("A malformed action datagram aborts the bus thread",
  "If any participant publishes on <topic>/request or <topic>/response a datagram whose \"invocationId\" entry is not a string, delivering it to an action provider/consumer throws InvalidOperationException out of the bus loop.",
  "every datagram without a string invocationId",
  "All datagrams.",
  [BH+":Bus::CreateActionProvider", BH+":Bus::CreateActionConsumer", DH+":Datagram::operator std::string"])
p("A blocking Request returns the response if it arrives in time, else Empty",
  "Request returns the first response for its invocation id when that is processed before the timeout expires, and an Empty datagram otherwise, in every schedule of notify, wait and timeout (a missed notification only delays the return to the timeout).",
  "every interleaving of the waiting thread, the bus thread and the timer; invocation ids are distinct (see C141 for equal ones)",
  "All schedules.",
  [AC+":ActionConsumer::Request"])
p("A response arriving after a Request timed out is undefined behaviour",
  "After Request has timed out, its callback is still registered although it refers to the dead stack frame, so a response with its id processed later is undefined behaviour; responses to other requests are unaffected.",
  "every history containing a timed-out Request followed by its response; invocation ids are distinct (see C141 for equal ones)",
  "Use of a dead stack frame usually goes unnoticed in tests.",
  [AC+":ActionConsumer::Request", AC+":ActionConsumer::ProcessResponse"])
p("Requesting synchronously from a bus callback always times out",
  "A Request issued on the bus thread (from a subscriber callback) can never receive its response before its timeout, because the only thread that could process the response is the one waiting.",
  "every schedule; invocation ids are distinct (see C141 for equal ones)",
  "All schedules.",
  [AC+":ActionConsumer::Request", BUS+":Bus::Run"])
# ---------------------------------------------------------------- link
p("A link never echoes a message it has received",
  "A message that entered a node through a link is never sent out again by that same link instance, and every other message published on the node's bus is sent out by it exactly once per enabled publishing socket.",
  "every message, node history and link configuration",
  "All histories.",
  [LK+":Link::Initialize", LK+":Link::Run", MS+":Message::WasSentBySender"])
p("Link framing round trip",
  "What one link sends for a message is received by the peer as exactly one equal message (up to the datagram round trip) and the peer publishes it with its own identifier prepended to the sender; frames consisting only of the topic part are ignored.",
  "every message; every way the payload could be split into parts",
  "All messages and splits.",
  [LK+":Link::SendZmqMessage", LK+":Link::ReceiveMessage", LK+":Link::Run"])
p("Relaying on acyclic link topologies terminates and reaches each node once",
  "In a network of nodes connected by point-to-point links forming a tree, with one link instance per connection, a message published on one node is published on every other node exactly once; on a cyclic topology it circulates for ever.",
  "every tree topology of any size; existence of a non-terminating run for cycles",
  "All topologies.",
  [LK+":Link::Initialize", LK+":Link::Run"])
# ---------------------------------------------------------------- plugins and process
p("Plugin instance names are the smallest free indices",
  "The n-th instance of a template (before any Unload) is named identifier followed by n-1 in decimal; all instances of a template have distinct names. As long as there are fewer than 2^31 instances the next one can be created; after that the index overflows (undefined behaviour).",
  "every template and any number of instantiations",
  "Unbounded counts.",
  [PT+":PluginTemplate::Instantiate", PT+":PluginTemplate::IndexedInstanceExists"])
p("Instance names of different templates can collide",
  "There are two templates with different identifiers and a number of instantiations after which Instantiate throws DuplicateKeyException because the child bus name is taken by an instance of the other template.",
  "existence; refutes 'different templates never clash'",
  "Counterexample to a universal claim.",
  [PT+":PluginTemplate::Instantiate", BUS+":Bus::CreateChildBus"])
p("Unload stops every instance before deinitialising any, each exactly once",
  "PluginTemplate::Unload calls Stop on every instance, then Deinitialize on every instance exactly once each, in name order, and leaves no instance; a second Unload (or the destructor) does nothing more.",
  "every set of instances",
  "All instance sets.",
  [PT+":PluginTemplate::Unload", PT+":PluginTemplate::Stop", PT+":PluginTemplate::Deinitialize"])
p("A template file is loaded exactly when it qualifies",
  "LoadTemplate registers a template exactly when the path exists, its extension is the platform's, its file name starts with the platform prefix, the library opens, both creation functions exist and the info identifier is non-empty; in all other cases no template changes and every library opened by the attempt is closed again.",
  "every path and every library behaviour",
  "All inputs and failure points.",
  [PM+":PluginManager::LoadTemplate"])
p("Library handles are balanced unless an identifier is loaded twice",
  "For every sequence of LoadTemplate calls whose loaded identifiers are distinct, after UnloadTemplates every library open is matched by a close; loading a second library with an already loaded identifier drops the first handle without closing it.",
  "every load sequence",
  "All histories.",
  [PM+":PluginManager::LoadTemplate", PM+":PluginManager::UnloadTemplates"])
p("A worker thread is joined exactly once and never abandoned under Start/Stop discipline",
  "For every alternating use of Start and Stop on a plugin instance, Stop returns only after the worker's Run has returned, destroying the instance never terminates the process, and repeated Stops are no-ops; a second Start without Stop in between terminates the process.",
  "every history of Start/Stop/destroy",
  "All histories.",
  [PI+":PluginInstance::Start", PI+":PluginInstance::Stop", PI+":PluginInstance::~PluginInstance"])
p("Configuration processing survives unknown plugins only",
  "Reading a configuration instantiates, in order, every list element having a string \"type\" naming a loaded template, reports and skips those naming unknown templates, ignores elements without \"type\"; but an empty or non-list \"plugins\" entry or a non-string type throws out of Start.",
  "every configuration datagram",
  "All documents.",
  [LP+":LampPost::ReadConfigurationFile", LP+":LampPost::InstantiatePlugin"])
p("IsStopped never becomes true",
  "After any sequence of Start and Stop calls, at any moment, IsStopped() returns false, even after Start has returned.",
  "every history",
  "All histories.",
  [LP+":LampPost::Start", LP+":LampPost::IsStopped"])
p("When a stop signal works, is lost, or is undefined",
  "A shutdown signal makes Start return if it arrives while the root bus is running, is silently lost if it arrives after construction but before the root bus starts, and dereferences a null pointer if it arrives before construction or after the root bus has been released.",
  "every moment at which a signal can arrive",
  "All arrival times.",
  [MC+":HandleShutdownSignal", LP+":LampPost::Stop", LP+":LampPost::Teardown"])
# ---------------------------------------------------------------- utilities
p("Path helpers are mutually consistent",
  "GetFilename(CombinePaths(r,f)) = f and GetBaseDirectory(CombinePaths(r,f)) = r for every f without '/'; for every path containing '/', CombinePaths(GetBaseDirectory(p), GetFilename(p)) = p; a path without '/' has empty filename, base directory and extension.",
  "every path string",
  "All strings.",
  [FS+":Filesystem::CombinePaths", FS+":Filesystem::GetFilename", FS+":Filesystem::GetBaseDirectory"])
p("The file extension is what follows the last dot of the filename",
  "GetFileExtension(p) is the part of GetFilename(p) after its last '.', and empty if there is none; dots in directory names never matter.",
  "every path string",
  "All strings.",
  [FS+":Filesystem::GetFileExtension"])
p("Directory listing filter treats directories as files",
  "GetDirectoryContents(path, File) and (path, Any) return every entry that is a regular file or a directory in directory order, and (path, Directory) returns nothing, for every directory content.",
  "every directory content",
  "All directories; refutes the documented filter semantics.",
  [FS+":Filesystem::GetDirectoryContents"])
p("Configuration equality is not an equivalence",
  "PluginManagerConfiguration equality is true whenever the left search path list is a prefix of the right one (same bus), reads past the end when the right one is a proper prefix of the left, and LampPostConfiguration equality ignores the configuration files; hence == is not symmetric.",
  "every pair of configurations",
  "All pairs.",
  [PMC+":PluginManagerConfiguration::operator==", LPC+":LampPostConfiguration::operator=="])
p("UUID strings are well-formed and fit their buffer",
  "Every generated UUID string has five '-'-separated non-empty groups of lower-case hex digits, the third of which has four digits starting with 4 and the fourth four digits starting with 8, 9, a or b, and the whole string is shorter than the 128-byte buffer for every sequence of random draws.",
  "every sequence of eight 32-bit draws",
  "2^256 inputs.",
  [UU+":Uuid::CreateUuid"])
p("UUIDs can collide",
  "Different random draws can give the same string (missing zero padding), and since the generator is seeded with 32 bits, among any 2^32+1 UUIDs two are equal, whatever the generator.",
  "every generator function; every list of more than 2^32 ids",
  "Collision claims over the whole seed space.",
  [UU+":Uuid::CreateUuid"])
p("Log lines are never interleaved and are formatted exactly",
  "For every interleaving of any number of logging threads the output is a sequence of complete lines, each \"[prefix] \" followed by two spaces per indentation level and the message, each thread's lines in its own order.",
  "every schedule and every message",
  "All schedules.",
  [LG+":Log::Write", LG+":Log::WriteSynchronized"])
p("Managing child buses of a bus above from a callback deadlocks",
  "If a callback of a subscriber on bus b calls CreateChildBus, GetChildBus or Detach on a bus above b, or Start on the root bus, the callback never returns and the bus thread never distributes again.",
  "every bus tree, every continuation of every schedule",
  "The claim is that no continuation, however long, ends the wait.",
  [BUS+":Bus::Distribute", BUS+":Bus::CreateChildBus", BUS+":Bus::GetChildBus", BUS+":Bus::Detach", BUS+":Bus::Run"])
p("Buffers for the executable's path and the working directory",
  "GetPathOfRunningExecutable returns the target of /proc/PID/exe cut to 1023 bytes and reads an uninitialised buffer if that link cannot be read; GetWorkingDirectory returns the working directory if it is shorter than 1024 bytes and an empty string otherwise.",
  "every link target and every working directory",
  "All lengths, including those at and beyond the buffer size; the failure case is undefined behaviour.",
  [FS+":Filesystem::GetPathOfRunningExecutable", FS+":Filesystem::GetWorkingDirectory"])
p("Instance names are never free again",
  "The name given to a plugin instance stays taken on its parent bus: a template of the same identifier loaded again later cannot be instantiated (DuplicateKeyException), and a creation that fails blocks the template for ever or, depending on the compiler's evaluation order, makes Unload dereference a null pointer.",
  "every template, every number of instances, both evaluation orders",
  "Needs a history spanning unloading and loading, and depends on unspecified evaluation order.",
  [PT+":PluginTemplate::Instantiate", BUS+":Bus::CreateChildBus", PM+":PluginManager::UnloadTemplates"])
p("A host can be started once",
  "Once Start of a LampPost object has returned, calling Start again never runs the root bus: either an exception leaves Setup or the configuration step, or the released root bus is dereferenced. If unloading throws, so that Start does not return, the root bus remains and a second Start runs it again.",
  "every continuation after the first Start has returned",
  "All continuations; the failing one is undefined behaviour.",
  [LP+":LampPost::Start", LP+":LampPost::Teardown"])
p("An exception from a configuration file skips the shutdown",
  "If reading a configuration file throws, Start throws the same exception at once: the root bus is never run nor released, and every plugin library loaded before stays loaded and open.",
  "every environment, every list of configuration files, every exception",
  "All configurations and plugin sets; the effect is what does not happen.",
  [LP+":LampPost::Start", LP+":LampPost::ReadConfigurationFile"])
p("A normal return of Start has released the plugins",
  "When Start of a new host returns, the host's pointer to the root bus is null, no template is left, and every plugin library has been closed exactly as often as it was opened, provided the loaded files have distinct identifiers.",
  "every environment, every list of configuration files, everything that happens on the bus",
  "All plugin sets and configurations.",
  [LP+":LampPost::Start", LP+":LampPost::Teardown", PM+":PluginManager::UnloadTemplates"])
p("The sockets a link opens",
  "For every configuration the link opens exactly the sockets of the enabled roles, in a fixed order and at the configured addresses; a missing or wrongly typed entry takes its documented default (roles disabled, ports 6967 and 6968, interface *, host 127.0.0.1).",
  "every configuration datagram, every outcome of creating the context and each socket",
  "All configuration datagrams and all combinations of failing calls.",
  [LK+":Link::Initialize", LK+":Link::CreateZmqSocket", DH+":Datagram::Get"])
p("A link closes what it opened",
  "After any initialisation, Deinitialize closes every socket that was opened exactly once, before shutting down and terminating the context, and leaves no pointer behind.",
  "every configuration datagram, every outcome of creating the context and each socket",
  "All combinations of roles and failing calls.",
  [LK+":Link::Deinitialize", LK+":Link::Initialize"])
p("A link does not relay between its own connections",
  "A node all of whose connections belong to one link instance (a server with several clients, or a link in both roles) never passes a message on: nodes connected only through it never see each other's messages, in any execution.",
  "every network, every number of clients, every order of events",
  "The claim is that something never happens, for all topologies and schedules.",
  [LK+":Link::Initialize", LK+":Link::Run", MS+":Message::WasSentBySender"])
p("A link never uses a socket it has closed",
  "In every interleaving of messages arriving on the bus, messages arriving from the network, Stop and Deinitialize (with or without Stop before it), no socket is used after it was closed, none is closed twice or used through a null pointer, and nothing is called after the context is terminated; when Deinitialize returns everything opened is closed and the link's bus callback can no longer run.",
  "every interleaving of the bus thread, the worker thread and the owner; every set of sockets that could be opened",
  "A property of all schedules of three threads; tests see a few of them.",
  [LK+":Link::Deinitialize", LK+":Link::Run", LK+":Link::Initialize", PI+":PluginInstance::Stop"])
p("Shutting a link down never waits for ever",
  "Whenever the owner of a link is inside Stop or Deinitialize, the thread it waits for can finish by itself in a bounded number of steps, whatever arrives meanwhile, and Deinitialize itself takes a bounded number of steps.",
  "every reachable state of the three threads, every behaviour of the network and the bus",
  "Absence of deadlock over all schedules of three threads and five mutexes.",
  [LK+":Link::Deinitialize", LK+":Link::Run", PI+":PluginInstance::Stop", BUS+":Bus::DeleteSubscriber"])
p("The system information action answers each request once",
  "The SysInfo plugin answers every request its provider is shown exactly once, in order and always with the same response, and a consumer whose request reaches it undisturbed has its callback called exactly once with that response, whatever else goes on, as long as only strings are published on /sysinfo.",
  "every hierarchy, every schedule, every request, every behaviour of other code that does not interfere with this request; invocation ids are distinct (see C141 for equal ones)",
  "Exactly once, and for all schedules and all other traffic.",
  [SI+":SysInfo::Initialize", AP+":ActionProvider::Respond", AC+":ActionConsumer::Request"])
p("Unloading the SysInfo plugin leaves its action behind",
  "Deinitialize removes the subscriber, which never receives anything again, but not the action provider: it stays registered with a callback that refers to the instance, and the first request delivered after the instance is destroyed makes the bus thread execute the callback of the destroyed object. While the instance exists nothing it does is undefined.",
  "every history, every schedule after unloading",
  "Undefined behaviour that depends on a request arriving later; a test that unloads and looks sees nothing.",
  [SI+":SysInfo::Initialize", SI+":SysInfo::Deinitialize", PT+":PluginTemplate::Unload"])
p("A message that is not a string on /sysinfo stops the bus",
  "The SysInfo plugin's subscriber takes strings only: when any other datagram published by anyone on /sysinfo is delivered to it, an exception leaves Run of the root bus and the messages drained after it are lost.",
  "every datagram, every reachable state, every schedule",
  "All datagrams and all states of the bus; the effect is on messages that have nothing to do with the plugin.",
  [SI+":SysInfo::Initialize", DH+":Datagram::Get", BUS+":Bus::Run"])
p("Heartbeats are sent only if configured",
  "The SysInfo plugin sends its periodic message if and only if its configuration has the Boolean true at send-datagram; a missing entry or one of another type means no, and reading does not change the configuration.",
  "every configuration datagram",
  "All configuration datagrams, including wrongly typed ones.",
  [SI+":SysInfo::Initialize", SI+":SysInfo::Run"])
p("A stop control ends the Windows service unless it comes too early",
  "When the service acts on a stop control while the host is inside the root bus's Start, the host's own steps suffice for Start to return and for Main of the service to return. When it acts on it before that, Stop has no effect: unless other code stops the root bus, Main waits for the host thread for ever.",
  "every reachable state of the service's three threads, every later interleaving",
  "Depends on the relative speed of three threads; the losing schedules do not occur in a quiet test.",
  [SV+":Service::Init", SV+":Service::ControlHandler", LP+":LampPost::Stop", BUS+":Bus::Start"])
p("The Windows service does not notice that its host has ended",
  "If LampPost::Start returns by itself, the service never ends: Main does not return whatever happens, the last report to Windows stays RUNNING until a stop control arrives, and acting on that control dereferences a null root bus.",
  "every reachable state after Start has released the root bus, every later interleaving",
  "A claim about all continuations, ending in undefined behaviour.",
  [SV+":Service::Init", LP+":LampPost::IsStopped", LP+":LampPost::Stop", LP+":LampPost::Teardown"])
p("What the service tells Windows",
  "Reports come in order (START_PENDING accepting no control, then RUNNING or a failed start's STOPPED, then only STOP_PENDING and STOPPED) with checkpoints of pending states that never decrease. If the handler has returned when the service wakes up, the last report is STOPPED; from that report on the process may end, which is undefined until the host has returned from Start and defined after Main has returned. If the handler is slower, STOPPED may never be reported. If the control handler cannot be registered, nothing is ever reported, the host never starts and the process does not end by itself.",
  "every interleaving of the service thread, the control handler and the host",
  "The order of reports and the moment of the end depend on the schedule of three threads.",
  [SV+":Service::ReportStatus", SV+":Service::ControlHandler", SV+":Service::Init", SVM+":_tmain"])
p("The containers of a bus are never raced on",
  "Whatever functions of buses, publishers, subscribers, providers and consumers are called on however many threads and inside callbacks, two threads are never about to access the message queue, or the list of subscribers, publishers, providers, consumers or children of one bus, with one of them writing.",
  "every number of threads, every program of calls, every interleaving",
  "Data races show up in rare schedules only, and a run without a symptom proves nothing.",
  [BH+":Bus::CreateManagedResource", BH+":Bus::DeleteManagedResource", BUS+":Bus::QueueMessage", BUS+":Bus::Run", BUS+":Bus::Distribute", BUS+":Bus::CreateChildBus"])
p("Which members are raced on, and by what",
  "After any set-up phase: callbacks of subscribers are raced on exactly if some client sets a callback of an existing subscriber, creates an action provider or consumer, or deletes a subscriber via another bus; the function of a publisher exactly if publishers are deleted; the forwarding function of a bus exactly if buses are detached; the open requests of a consumer exactly if requests are made outside callbacks (two requests on one consumer suffice); the callback of a provider exactly if providers are reset; the answer of a blocking request exactly if one made outside callbacks gives up waiting.",
  "every set of allowed calls, every set-up, every number of threads, every interleaving",
  "Half of each equivalence is absence over all schedules; the other half is undefined behaviour.",
  [SUB+":Subscriber::SetDatagramCallback", SUB+":Subscriber::Receive", PUB+":Publisher::Reset", BUS+":Bus::Detach", AC+":ActionConsumer::ProcessResponse", AC+":ActionConsumer::Request", AP+":ActionProvider::Reset", BH+":Bus::CreateActionProvider"])
p("Rules under which the bus layer is free of data races",
  "Programs that, once set up, only publish, create subscribers (with their callback) and publishers, delete subscribers via their own bus, create and look up child buses, respond, start and stop the root bus, and make requests in callbacks only, have no data race on any member; dropping any one of these restrictions admits one.",
  "every set of allowed calls, every program that keeps to it, every number of threads, every interleaving",
  "A guarantee over all programs and schedules.",
  [BH+":Bus", BUS+":Bus", AC+":ActionConsumer", AP+":ActionProvider"])
p("Directory listing on Windows",
  "On Windows IsFile is exact, IsDirectory is also true of everything that does not exist; listing an existing directory returns exactly the entries of the kinds asked for, without . and .., in the order found; listing a directory that cannot be searched never returns files, but under the filters Directory and Any returns a name made from memory that was never written, whenever that memory holds a non-empty C string.",
  "every directory content, every filter, every content of uninitialised memory",
  "Depends on what is in uninitialised memory; no test controls that.",
  [FS+":Filesystem::GetDirectoryContents", FS+":Filesystem::IsDirectory", FS+":Filesystem::IsFile"])
p("Paths on Windows",
  "On Windows splitting and combining paths are inverse to each other with the backslash as only separator (a path written with '/' has no file name); GetPathOfRunningExecutable never returns the path but always 1024 bytes, and the directory taken from it, where plugins are searched, is right exactly if the bytes left over in the buffer contain no backslash; GetWorkingDirectory is exact below 1024 bytes and reads an unwritten buffer otherwise.",
  "every path, every content of uninitialised memory",
  "All strings and all contents of uninitialised memory.",
  [FS+":Filesystem::GetPathOfRunningExecutable", FS+":Filesystem::GetWorkingDirectory", FS+":Filesystem::CombinePaths", FS+":Filesystem::GetBaseDirectory", FS+":Filesystem::GetFilename"])
p("Where plugin templates come from",
  "A new plugin manager searches the paths it is given, the directory of the executable, the working directory if different, and lib in the working directory, in this order; after LoadTemplates there is a template for an identifier exactly if a file in those directories qualifies for it, and it is the one of the last such file.",
  "every file system, every set of libraries, every list of search paths",
  "All directory contents and duplicates.",
  [PM+":PluginManager::PluginManager", PM+":PluginManager::LoadTemplates", PM+":PluginManager::LoadTemplate"])
p("Every plugin instance has a bus of its own",
  "InstantiateTemplate makes the instance on a new child bus, named like the instance, of the bus its configuration names, or of the manager's bus if it names none; the new bus is running and empty and nothing else in the hierarchy changes. An unknown identifier gives a null pointer and changes nothing; without any bus a null pointer is dereferenced.",
  "every manager state, every identifier, every configuration, every bus hierarchy",
  "All hierarchies and all states of the manager.",
  [PM+":PluginManager::InstantiateTemplate", PT+":PluginTemplate::Instantiate", BUS+":Bus::CreateChildBus"])
p("Plugins are unloaded on silent buses",
  "When the host shuts down, every bus is detached before any plugin is stopped or deinitialised: whatever plugins (in Stop and Deinitialize) or other threads publish from then on is dropped, and creating a child bus throws; no plugin can send a farewell message.",
  "every hierarchy, every set of instances, everything done during the shutdown by any thread",
  "The set of hierarchies, plugins and concurrent actions is unbounded.",
  [LP+":LampPost::Teardown", BUS+":Bus::Detach", PM+":PluginManager::UnloadTemplates"])

p("A publisher is usable exactly as long as its bus is kept",
  "Between two calls a bus is alive if and only if client code holds it, or a bus above it, in a variable or captured in a callback. Publish on a publisher, Request on a consumer and Respond on a provider are defined if the bus they were created on is alive, and undefined behaviour if it is not: holding them does not keep the bus alive.",
  "all sequences of calls, releases of handles and destructors",
  "A dangling this usually still works in a test; which sequences are safe is a statement about all of them.",
  [BH + ":102-114", BUS + ":18-26", BUS + ":46-60", BUS + ":99-105", PUB + ":20-26"])
p("A bus may outlive the buses above it",
  "Publishing on a bus one holds is always defined. A bus forwards only to the bus at its top, which is then alive; once a bus above it has been destroyed it forwards nowhere: messages are dropped and no child can be created.",
  "all sequences of calls, releases of handles and destructors, all hierarchies",
  "The order in which a tree of shared pointers is destroyed depends on who holds which part; tests fix one order.",
  [BUS + ":46-60", BUS + ":99-105", BUS + ":206-216"])
p("Action providers and consumers are never destroyed, everything else is",
  "An ActionProvider or ActionConsumer once created is never destroyed, nor are its subscriber and publisher, nor what its registered functions have captured, even after its bus is gone. Everything else is destroyed once no variable and no captured handle owns it, directly or through others; destructors always come to an end.",
  "all sequences of calls, releases of handles and destructors",
  "A leak has no effect a unit test observes, and its absence is a statement about every ownership cycle.",
  [BH + ":122-174", BH + ":63-81"])
p("A participant left behind by a closed library makes the destruction of the bus undefined",
  "An object that contains code of a closed library (the callback of a subscriber, the lambda of a publisher) can never be destroyed in a defined execution. If a program has left one and then releases everything, the destructors run into undefined behaviour in every order.",
  "all sequences of calls, all orders of destructors",
  "Whether the unmapped code is reached depends on the loader and the order of destruction.",
  [BH + ":102-120", PM + ":46-60", BUS + ":46-60"])
p("Rules that keep lifetimes safe",
  "A program that closes a library only when no object of the bus layer contains its code, and publishes, requests and responds only while it holds the bus, never runs into undefined behaviour through lifetimes. DeleteSubscriber and DeletePublisher remove the code of the library from an object.",
  "all programs that follow the rules",
  "Sufficiency of a rule is a statement about all programs that follow it.",
  [BH + ":63-120", BUS + ":107-115", PM + ":46-60"])

p("A participant lives as long as its bus",
  "A subscriber, publisher, action provider or consumer created on a bus stays alive as long as that bus does, even if client code releases every handle to it, unless it is deleted from that bus: releasing the handle of a subscriber does not unsubscribe.",
  "all sequences of calls, releases of handles and destructors",
  "A test can only show that one released handle did not unsubscribe at once.",
  [BH + ":63-81", BH + ":102-174", BUS + ":107-115"])

p("Destroying a host makes up for a skipped shutdown, or ends the process",
  "When Start has returned, the bus still lives (the plugin manager refers to it) and destroying the host only releases it. When Start has thrown, destroying the host unloads the plugins: if the destructor comes to its end, every instance was stopped and deinitialised, every library was closed as often as it was opened, and the bus is released. It comes to its end exactly if every instance exists and every Deinitialize returns; a Deinitialize that throws ends the process, in particular if it already made Start throw; a null instance is undefined behaviour.",
  "every environment, every list of configuration files, everything that happens on the bus, every exception",
  "All plugin sets, all points at which Start can throw; termination and undefined behaviour cannot be observed within a test.",
  [LP + ":24-27", PM + ":32-36", PM + ":182-198", LP + ":111-144"])

p("On Windows only plugins built for 32 bits are loaded, from directories that exist",
  "On Windows LoadTemplate loads exactly the existing files named plugin_*.dll after the last backslash that open, export _CreateInfo@0 and _CreateInstance@N (N the size of PluginConfiguration) and name a non-empty identifier; any other library is closed again and changes nothing. A library that exports the undecorated names, as 64-bit compilers do, is never loaded, so a host with such libraries has no templates. LoadTemplates is defined for every content of unwritten memory exactly if every search path can be searched; since lib in the working directory is always searched, a working directory without lib makes it undefined.",
  "all file systems, libraries, search paths and contents of unwritten memory",
  "Every library and directory layout, and memory contents a test cannot choose; the tests run on one platform and word size.",
  [PM + ":7-8", PM + ":14-30", PM + ":42-45", PM + ":69-180", FS + ":67-93"])

p("What a signal does depends on the platform",
  "On Unix SIGINT and SIGTERM always stop the bus, however many arrive, and SIGABRT ends the process. On Windows each of the three signals stops the bus the first time and ends the process at once, without unloading plugins, the second time, however far the shutdown has come. On macOS every signal ends the process at once. A process that is still there is in the state described by the property on shutdown signals.",
  "all interleavings of bus events, threads and signals, on each platform",
  "Second signals during every stage of a shutdown, three platforms; ending a process cannot be observed inside it.",
  ["src/lamppost/platformspecific/xnix/Xnix.cpp:4-28", "src/lamppost/platformspecific/windows/Windows.cpp:4-25", "src/lamppost/platformspecific/osx/Osx.cpp:4-7"])

p("The program ends with status 0 exactly if Start returns; after an exception nothing is shut down",
  "The program searches the directory of the executable, the working directory and its subdirectory lib, whatever the configuration file says, and reads only the file named by its first argument. It ends with status 0 exactly if Start returns, and then every library was closed as often as it was opened. An exception that leaves Start aborts it; unless Teardown threw it, no plugin instance is stopped or deinitialised and the libraries of all templates stay open.",
  "every environment, arguments and files, every exception, everything that happens on the bus",
  "All points at which an exception can leave Start, for all plugin sets; the abort ends the test process.",
  ["src/main.cpp:21-52", LP + ":6-22", LP + ":111-144", "src/lamppost/settings/SettingsManager.cpp:18-21"])

p("In an orderly run every plugin instance is stopped once and deinitialised once, in that order",
  "If Start returns, or the program ends with status 0, then no name was given to two instances, and every instance that was created was stopped exactly once and deinitialised exactly once; at no time had more been deinitialised than stopped, or stopped than created; nothing is stopped before the last instance was created.",
  "all sets of libraries, configuration files and instance behaviours",
  "Needs all combinations of libraries, repeated types, failing creations and colliding names.",
  [PM + ":182-230", PT + ":24-65", LP + ":38-65"])

p("A plugin that uses an action cannot be unloaded safely, one without can",
  "Once code of a plugin library has created an action provider or consumer on a bus, code of the library stays in its subscriber and publisher for ever, and the subscriber stays registered as long as the bus lives, whatever the program does: nothing in the interface removes them. If the library is closed, the next request or response that reaches the bus is undefined behaviour. Code of a library is only in objects into which the library put it and which were not deleted since, so a plugin without actions that deletes every subscriber and publisher it gave code to can be unloaded.",
  "all programs, all interleavings of their calls with those of the plugin",
  "A negative claim about every possible cleanup, and undefined behaviour in unmapped code.",
  [BH + ":75-81", BH + ":122-172", PM + ":182-198", "src/plugins/sysinfo/SysInfo.cpp:17-68", "src/plugins/link/Link.cpp:71-97", "src/plugins/link/Link.cpp:279-282"])

p("Threads that exchange Datagrams through a bus never race on their content",
  "Threads that share no Datagram variables but publish to each other through the queue of a bus as much as they like never touch the same object of a Datagram at the same time, not even to read it: whenever two threads can both go on, their next operations touch disjoint sets of objects. What one thread does never changes what another sees in its own Datagrams, so a publisher may go on changing what it has published.",
  "all interleavings of Datagram operations and queue operations of any number of threads that share no variables",
  "Absence of races over all schedules and all aliasing of handles.",
  [BUS + ":18-26", BUS + ":94-105", BUS + ":156-168", DG + ":8-15", PUB + ":20-26", SUB + ":26-53"])

p("The storage of a Datagram is released exactly when nothing can see it any more",
  "Whatever a program does with Datagrams, including keeping handles on parts of containers that are cleared, overwritten or out of scope, an object is destroyed exactly if no variable holds a datagram that it is a visible part of: nothing leaks and nothing in use is destroyed. When the last variable ends everything is destroyed, and what is destroyed is never used again. Raw datagrams that were linked into a cycle are never destroyed.",
  "all programs over the Datagram API, all points in time; all cycles of raw datagrams",
  "Leaks and premature destruction depend on the whole history of aliasing handles.",
  [DH + ":17", DH + ":28-53", DH + ":74-87", DG + ":8-20", RH + ":40-42", RD + ":35-41", RD + ":92-217"])

p("The plugin instances of a host hear each other",
  "After a host has read its configuration files, every instance it created has a bus of its own, a running child of the root with the name of the instance. Once the bus of the host is started, and as long as nobody stops or detaches a bus, whatever else any thread does: everything an instance publishes enters the queue under its name, and a subscriber with a callback on the bus of any instance receives every message of its topic published by any instance, once and in the order of publication, and all of them by the time the bus is idle.",
  "all sets of libraries and configuration files, all executions of all threads after the start",
  "End to end over plugin loading, configuration and all interleavings of the bus.",
  [PT + ":24-39", PM + ":205-230", LP + ":29-36", LP + ":48-65", LP + ":111-144", BUS + ":62-81", BUS + ":181-204"])

p("What a value given to a Datagram becomes depends on its C++ type; a string literal assigned is stored as `true`",
  "Assigning a bool, int, double or std::string to any place of a Datagram stores that value; char, short and enumerations become int, float becomes double; a string literal, like any other pointer, becomes the boolean that says it is not null, whatever the text; unsigned, long, unsigned long, nullptr and shared_ptr<Data<T>> do not compile; a shared_ptr<RawDatagram> becomes an opaque value, not a child. Constructing a Datagram from a value stores it under its own type, so that a literal, char, short, float or long can be read as none of the four value types and reaches a receiver as Empty; constructing it from a shared_ptr<RawDatagram> makes a second handle to the same object, no copy. Get(path, literal) returns the literal although there is a string. Construction and assignment agree for bool, int, double, std::string, shared_ptr<DataBase>, RawDatagramType and classes, and for nothing else.",
  "all argument types and values, all programs, all places",
  "The overload is chosen by the compiler; a test shows one type, and a literal compiles and runs without complaint.",
  [DH + ":18-26", DH + ":74-80", DH + ":96-100", RH + ":46-73", RH + ":97-101", RD + ":219-260"])

p("A null data pointer poisons a Datagram until the next assignment",
  "A Datagram assigned a null shared_ptr<DataBase> reports type Value and is not empty, but Get throws for every type, path reads give the default, it does not equal itself and a receiver gets Empty. Printing or copying it is undefined, and so is copying any Datagram that contains it at any depth. Assigning anything else leads to the state that this assignment alone would have led to.",
  "all programs, all handles on parts, all values assigned next",
  "The assignment itself succeeds; the failure is undefined behaviour in a later copy, of a datagram that may only contain the part.",
  [RH + ":65", RH + ":101-116", RD + ":29-33", RD + ":47-80", RD + ":247-260", DH + ":74-87"])

p("Actions work across links: one request on a host, one answer from the provider on the other",
  "Two hosts joined by a pair of link plugins. If a consumer on one host requests with a new id and a provider of the topic on the other host answers whatever it is shown with a function f of it, then, if both stay registered and served, the links are up, the buses of the two are not named like senders behind a link and nobody else uses the id on that topic, the consumer's callback has been called exactly once by the time everything has been distributed, with the serialised form of f of the serialised request. Whatever the clients do, as long as none of them publishes on the response topic itself, a callback is only called with what a provider of the topic responded to this id: unchanged from the same host, serialised once from the other; and at most once for distinct ids and callbacks that do not throw.",
  "all schedules of all threads of both hosts, all other traffic in both directions, all f and documents",
  "End to end over two bus threads, two links and the wire; all interleavings.",
  [AC + ":22-40", AC + ":73-81", AP + ":25-37", BH + ":117-173", LK + ":71-97", LK + ":153-185", MS + ":59-75", BUS + ":87-105", BUS + ":137-204"])

p("Exceptions tell the truth, except for large indices and detached buses",
  "Whatever a statement on Datagrams throws, at any depth of a chain of operator[], is true: KeyNotFoundException carries the key that the dictionary lacks, IndexOutOfBoundsException the index that the list lacks, InvalidOperationException is thrown exactly on the wrong kind of datagram; conversely, if there is such a reason, exactly this exception is thrown. The same holds for reading calls. But GetIndex() is the index only below 2^31 and negative from there on. CreateChildBus throws DuplicateKeyException with the name exactly for a taken name and ArgumentNullException for an empty name, but also blames the parameter name if the name is fine and the bus is detached; it then has changed nothing. Every exception of the library can be caught as lp::exceptions::Exception and std::runtime_error and by its own class only; bad_function_call from a null callback by none of them. An entry of a configuration file is skipped exactly for exceptions that a handler for OperationFailedException catches.",
  "all reachable programs and states, all statements, chains, keys and indices; all buses; all exceptions",
  "A test provokes one exception in one state; that no other reason exists and no reason is missed is a statement about all states.",
  [RD + ":109-217", RH + ":103-116", DH + ":38-67", BUS + ":8-44", BUS + ":62-92", AC + ":26-29", LP + ":93-105",
   "include/lamppost/exceptions/Exception.h:13", "src/lamppost/exceptions/IndexOutOfBoundsException.cpp:8-17", "src/main.cpp:42"])

p("A callback that throws ends the bus until the next Start, and a null datagram callback throws",
  "An exception out of a subscriber's callback leaves Start of the root bus with all mutexes released and every registration, callback and flag unchanged. Until Start is called again nothing is delivered and the queue collects what is published. The message in distribution reaches no further subscriber and the messages drained from the queue together with it reach nobody, whatever happens later; after a new Start every subscriber that stays served receives exactly the matching messages that were still queued or are published later, in order. A subscriber whose datagram callback is a null function is such a subscriber: each Start is ended by the first call of such a callback. A null message callback, in contrast, is harmless.",
  "all reachable states, all interleavings with other threads, all later executions including restarts, all sets of null callbacks",
  "A test can throw from one callback at one moment; what is lost depends on how many messages were drained together, which depends on the interleaving.",
  [BUS + ":127-169", BUS + ":181-204", SUB + ":14-53", LP + ":111-140"])

p("What a thread computes with its Datagrams does not depend on the interleaving",
  "Threads that each use their own Datagram variables, and copy Datagrams of each other (as publishing and receiving do), are deterministic: if a thread executes the same statements and the Datagrams it copies have the same content at that moment, then in every interleaving with any other threads its statements end in the same way, with the same exceptions, and it sees the same in all its variables afterwards. A thread that receives nothing behaves as if it were alone, and neighbouring statements of different threads may be exchanged.",
  "all programs of all threads, all interleavings of their statements, all reading calls through all chains of operator[]",
  "A test runs one schedule; independence of the schedule is a statement about all of them.",
  [DH + ":38-100", DG + ":8-49", RD + ":219-260", BUS + ":18-26", BUS + ":157-162"])

p("All subscribers of a hierarchy see the messages in one order, and effects never overtake causes",
  "Whatever threads publish on whatever buses of a hierarchy, there is one order of all messages, the order in which they entered the queue of the root, fixed for ever, and deliveries follow it message by message: if any subscriber gets one message before another subscriber (or the same) gets a second message, then nowhere in the hierarchy is the second delivered to anyone before the first is to someone. Hence what is published after a message was in the queue, by the same thread, in a callback that got it, or by anybody told by such a callback, reaches every subscriber after it: an answer never overtakes the question.",
  "all reachable states, all pairs of subscribers anywhere in the hierarchy, all pairs of messages, all interleavings of publishing threads and callbacks",
  "A test observes the order for one schedule and a few subscribers; the claim is about every pair under every schedule.",
  [BUS + ":18-26", BUS + ":99-105", BUS + ":145-204"])

p("A subscriber receives what is waiting when it is created, also what was published before Start",
  "A subscriber created while the hierarchy runs, and served from then on, receives exactly the matching messages that had not been taken up for distribution when it was created, although they were published before it existed, and all matching ones published later, each once and in order; of earlier messages it can receive only the one in distribution, if its bus was not visited yet. Messages published before Start of the root wait for it: a subscriber that is served from Start on receives every matching message ever published on the hierarchy.",
  "all reachable states, buses and topics, all interleavings with publishing threads, the bus thread and other calls",
  "Whether a message published just before is received depends on how far the bus thread has got, which a test does not control.",
  [BUS + ":18-26", BUS + ":43-66", BUS + ":127-204"])

p("The printed form identifies plain documents, and only those",
  "If two Datagrams contain only integers, strings without quotation marks, lists and dictionaries (keys without a colon and not beginning with a closing brace) and print alike, they have the same content. Integers print as their decimal value. Outside these documents the text is ambiguous: booleans print like 1 and 0, a list of the strings a and b like the list of the one string a\", \"b, and a dictionary of two entries like a dictionary of one with a suitable key, since nothing is escaped. Messages print as their sender, topic and content; for senders without blanks, topics without a closing bracket and such content, messages that print alike are equal in all three, while a sender with blanks can take over part of the topic.",
  "all pairs of Datagrams in all states of all programs, all strings, keys and nestings",
  "Unique readability concerns all pairs of documents of any depth.",
  [RH + ":124-187", "include/lamppost/messages/Data.h:46-49"])

p("Installing and removing the Windows service",
  "The service program installs or removes itself exactly if its first argument is install or uninstall, in capital or small letters. Every such run gives back all handles and touches no other service; refused access and an unknown program path are exceptions, other refusals are only printed. A successful installation registers the path of the program (its first 259 characters) for automatic start; an existing registration is never changed, so that over any number of runs the registered path is that of the first installation since the last removal. A removed service that is still open elsewhere stays, and can be neither installed nor removed, until it is closed. The path is registered without quotation marks: without a blank in it Windows starts exactly that program, but with a blank it starts another one, if there is one under the name that ends at the first blank. The error texts for the event log are never cut off.",
  "all arguments, all sequences of runs, all answers of Windows, all tables of services, all paths and sets of files, all error numbers",
  "A test would have to change the services of the machine; it sees one path and one history.",
  [SV + ":46-149", SV + ":274-301", SVM + ":12-50"])

p("A link has no data races; the Windows service has one in every stop and one on the root bus",
  "No two threads ever are about to make conflicting accesses to the socket pointers, the context pointer or the sockets of a link, however messages on the bus, messages from the network, Stop and Deinitialize are interleaved. In the Windows service the event handle and the counter of checkpoints are not raced on, but mStatus is: after a stop control the control handler and Init fill in and send it at the same time, and from the moment the handler sets the event this takes two steps. mRootBus of the host is raced on when the host ends by itself while Init calls Stop, and only then: not as long as nobody but Init stops the root bus.",
  "all reachable states of a link and of the service, all interleavings of their threads, all sets of sockets",
  "A race is a property of pairs of moments in different threads; a test run either hits the moment or not, and usually does not show it.",
  [LK + ":66-98", LK + ":136-188", LK + ":279-324", SV + ":179-264", LP + ":38-46", LP + ":146-150"])

p("What is configured is what runs, over all configuration files and the whole program",
  "If the plugins in the directories searched are in order (CreateInfo returns no null pointer, instances are made, initialise and deinitialise without exceptions, no identifier ends in a digit) and no entry of the configuration files has a type that is not a string, then the host gets to running its root bus with exactly the instances asked for by all entries of all files taken together: each entry naming an available plugin gives one instance, initialised with its configuration and started, numbered per plugin across all files; an entry naming anything else is reported and nothing more. Files that cannot be read, are no JSON or have no \"plugins\" add nothing. The program then ends as the bus does: status 0 when it stops, with precisely the configured instances created, each stopped and deinitialised once.",
  "all sets of plugin files, directories and search paths, all texts of all configuration files, all numbers of entries, all behaviours of the running bus",
  "The end-to-end statement quantifies over installations and configurations; a test has one of each.",
  [LP + ":29-144", PM + ":14-30", PM + ":69-180", PM + ":205-230", PT + ":17-39", "src/main.cpp:21-52"])

p("What is published on one host is heard on every host of a tree of links",
  "Any number of hosts, each with its bus thread and any number of client threads, are joined by links whose subscribers and buses work. If the connections form a tree, a subscriber on any host is called at most once for every message published on any host and matching its topic, with the content as serialisation leaves it and the sender extended by a prefix that depends only on the two hosts; once nothing is left to do it has been called exactly once for each of them. From every state in which the clients' calls of Publish have been completed, the bus threads and links alone can get to where nothing is left to do. If the connections contain a cycle, that never happens again after the first message. Hosts that are connected through one and the same link of a hub do not hear each other at all.",
  "all networks, all bus hierarchies on the hosts, all interleavings of all threads of all hosts and of the transmissions, all messages",
  "It is about interleavings of the threads of several programs; tests run one bus, and links need a network.",
  [LK + ":71-97", LK + ":153-185", BUS + ":18-26", BUS + ":99-105", BUS + ":137-204", MS + ":59-75"])

p("Links keep the order of each host's messages and causes come before effects, but there is no common order",
  "Links that receive in the order of sending keep order end to end: the messages published on one host by anything but its links appear at the end of every journey through the network (published there, and heard by every subscriber) in the order in which they were published. With the links in operation and no callback throwing there are no gaps: what has appeared are the first of them, and once nothing is left to do, all of them. Causes come before effects everywhere: whatever messages of a host u the host o had published before one of its own messages, every host that publishes a copy of that message has published their copies before it. Messages of different hosts that are not related in this way have no common order: two hosts may hear them in opposite orders, even when nothing is left to do.",
  "all networks of point-to-point connections (cycles included), all journeys without turning back, all interleavings of all threads of all hosts, all messages",
  "It is about interleavings of the threads of several programs over a network; a test sees one of them.",
  [LK + ":71-97", LK + ":153-185", BUS + ":18-26", BUS + ":137-204", MS + ":59-75"])

p("What is published is eventually delivered, unless callbacks keep adding child buses",
  "Let the thread in Start of the root bus be scheduled again and again, let callbacks return, and let child buses be created only finitely often. Then every waiting message matching the topic of a subscriber that stays registered on a running part of the hierarchy is delivered to it at some time, whatever the other threads and the callbacks do meanwhile (also if subscribers are created without end); every waiting message is taken from the queue and its distribution ends, as long as the root is running; and if the publishing ends, the bus comes to rest for good. The condition on child buses is needed: a callback that creates a child bus of its own bus and on it a subscriber with the same callback is called there with the same message, and so on, so that one message occupies the bus thread for ever (in C++ until the stack is used up), and nothing waiting behind it is ever delivered, although no other thread does anything.",
  "all endless executions: all schedules that do not forget the bus thread, all hierarchies, all numbers of threads",
  "Eventual delivery is about endless executions; a test observes finite ones and picks one schedule.",
  [BUS + ":62-81", BUS + ":137-169", BUS + ":181-204", BH + ":64-73"])

p("The bytes of a message: read back exactly, never checked",
  "Message::SerializeToBytes gives bytes from which Message::Deserialize, in any process and with anything behind them, makes a message with the same sender and topic and the document serialisation preserves (for messages below 2 GiB); so does a link that receives them in any number of parts. The bytes are at least as many as those of the sender, the topic and the keys and strings of the document together, and at most 50 more than these plus 150 for every datagram in the document; so every message for which this sum is below 2 GiB arrives. What is received is not checked: for every sequence of bytes reading either yields a message or is undefined behaviour, but it always ends and never throws. Fewer than ten bytes are always undefined behaviour, and so is every message whose fourth byte has been changed to 255 and every sequence whose first byte is not a multiple of four (a misaligned read); what SerializeToBytes gives is read with aligned accesses only. Two messages have the same bytes if, and below 2 GiB only if, they have the same sender, topic and document, where -0.0 counts as 0.0 and a value that is no string, int, double or bool as an empty datagram; how the document lies in memory does not matter. A message read and written again has the same bytes unless its document contains an empty list or dictionary, and after that its bytes never change again. A readable message that has been cut off is undefined behaviour or read as the very same message, never as another one. A small buffer can stand for a huge message: 400 + 208 k bytes suffice for one that makes the receiver create more than 2 to the power of k objects.",
  "all messages, all byte sequences, all splittings into parts, all heaps of the receiving process",
  "Byte sequences cannot be enumerated, and reading outside a buffer shows in a test only by luck.",
  [MS + ":28-52", RD + ":262-402", LK + ":188-241", "schemas/FBDatagram.fbs", "schemas/FBMessage.fbs"])

p("Every request is eventually answered",
  "A consumer requests something with a new invocation id, a provider of the same topic has a callback, both stay registered on running parts of the hierarchy, no callback throws, nobody else uses the id, and child buses are created only finitely often. If the bus thread and the threads in Publish and RequestAsync are scheduled again and again, then the request is shown to the provider, exactly as it was wrapped, whatever other traffic there is. If the provider, once shown the request, responds at some time with f of what it was shown, then from some time on the consumer's callback has been called for this request exactly once, with that response. A blocking Request made outside the bus thread then returns that response, in every execution without undefined behaviour, also when its notification is missed.",
  "all endless executions of any number of consumers, providers and threads that do not forget the threads concerned; all requests, all functions f; invocation ids are distinct (see C141 for equal ones)",
  "That something happens at some time, in every fair schedule, cannot be observed in finitely many finite runs.",
  [AC + ":22-81", AP + ":25-37", BH + ":121-172", BUS + ":137-204"])

p("Several threads in Start take turns",
  "Any number of threads may call Start of the root bus, at the same time and again and again. Two of them never distribute at the same time, so no two callbacks ever run at once. Nothing is lost between them and nothing is delivered twice: the published messages are at every moment those taken up, those some thread has taken out of the queue and those queued, in the order of publication; every subscriber gets each message at most once and in that order, all subscribers see one order, and one that stays registered on running buses gets everything that matches. They never block each other for good. After Stop, and before another Start, they make a bounded number of steps and all leave. But a Start in another thread before any of them has looked at the flag undoes a Stop: everything goes on as if Stop had not been called, with one more thread. A callback that throws costs only the thread in which it throws, and the rest of that thread's batch. Start of the root in a callback is undefined behaviour, and nothing else here is.",
  "all numbers of threads, all interleavings of them with any calls by other threads and by callbacks",
  "The interleavings of several threads in a wait loop cannot be enumerated.",
  [BUS + ":8-29", BUS + ":127-169", BUS + ":181-204", BH + ":45-46"])
p("Networks of hosts get everything through in the end, or flood themselves",
  "Hosts joined by links stay in operation for ever: links stay up and receive in order, bus threads run, no callback throws, child buses are created only for some time, and no thread or message is put off for ever. Then along every way through the network that does not turn back, everything a host has published by some moment is, from some later moment on, heard by each subscriber at the end of the way that wants it, in the order of publication, with nothing missing. In a connected network everything is so heard everywhere. If the network is a tree and its clients publish nothing any more, it comes to rest and stays at rest. If it has a cycle, one message is enough: the number of messages published on the hosts grows beyond every bound, for ever. Such operation is always possible: from any state of working hosts in which nobody is inside Publish, the network can go on for ever without its clients.",
  "all networks of two-way links with distinct names, all endless executions that put off nothing for ever, all moments",
  "That something happens eventually, or never stops, is a statement about executions without end.",
  [LK + ":70-100", LK + ":160-190", BUS + ":18-29", BUS + ":99-169", SUB + ":6-10"])

p("Requests to another host are eventually answered",
  "Two hosts are joined by a link, a consumer on one of them requests something with a new invocation id, and a provider of the topic on the other has a callback. The links stay in operation, both stay registered on running parts of their hierarchies, no callback throws, nobody else uses the id, child buses are created only finitely often, and no thread and no message on its way is put off for ever. Then the request is shown to the provider, wrapped as it was by the consumer and with its content as serialisation leaves it, whatever other traffic there is on the two hosts and between them. If the provider, once shown the request, responds at some time with f of what it was shown, then from some time on the consumer's callback has been called for this request exactly once, with the serialised form of that. A blocking Request made outside the bus thread then returns it, in every execution without undefined behaviour.",
  "all endless executions of two hosts with any number of consumers, providers and threads that put off nothing for ever; all requests, all functions f; invocation ids are distinct (see C141 for equal ones)",
  "It concerns endless executions of several threads on two machines; tests run one bus and finitely many steps.",
  [AC + ":22-81", AP + ":25-37", LK + ":71-97", LK + ":136-188", BH + ":121-172", BUS + ":137-204"])

p("A link may be initialised again only after it was deinitialised",
  "Initialize, Deinitialize and the destructor of a link are called in any order, while messages come to its bus and other code makes and deletes subscribers there. The history is defined exactly if every Deinitialize is the first one after an Initialize, nothing is called on a destroyed link, and no message comes after the destruction unless every Initialize was made up for; anything else is undefined behaviour, and no call waits for ever. Every message that is not the link's own leaves it once, on each of its sockets, for every Initialize that no Deinitialize made up for; after Deinitialize, and before Initialize, nothing leaves it. Each Initialize that finds a context in use leaves that context behind for ever. A server that could be reached at an address and is initialised again without Deinitialize can never be reached there again, not even after Deinitialize and a new Initialize. If the calls alternate, Deinitialize leaves nothing behind, and after the next successful Initialize every enabled role has its sockets, the server is bound to its addresses, and every message leaves each role once.",
  "all histories of calls, messages and subscriptions, all outcomes of the ZMQ calls, both roles, all addresses",
  "Any sequence of calls has to be considered; leaked sockets and the address they hold show only much later.",
  [LK + ":18-98", LK + ":102-134", LK + ":279-323", BH + ":75-81", BUS + ":107-110", BUS + ":181-204"])

p("A bus contains exactly what was created on it and not deleted through it",
  "ContainsSubscriber and ContainsPublisher of a bus answer true for an object exactly if the object was created on this very bus and has not been deleted through this bus. Deleting it through another bus, messages, callbacks, exceptions, Start, Stop and Detach make no difference. The null pointer is never contained.",
  "all interleavings of the bus thread with the calls of other threads and callbacks, all hierarchies, all subscribers and publishers",
  "All histories of calls on all buses have to be considered.",
  [BH + ":64-88", BH + ":103-119", BUS + ":107-125"])

p("The SysInfo action can be requested from another host until the plugin is unloaded",
  "A consumer on one host that requests \"/sysinfoaction\" of a SysInfo plugin on another host, joined by links, gets its callback called exactly once, with the plugin's response message, whatever else happens on the two hosts and between them; a blocking Request returns that message. After the instance has been destroyed there is no such execution without undefined behaviour: Deinitialize does not take the action back, so the request makes the bus thread of the plugin's host execute a lambda of the destroyed object.",
  "all endless fair executions of two hosts, all request ids and request data, all interleavings of bus threads, links, the plugin's Run and other clients; invocation ids are distinct (see C141 for equal ones)",
  "It is a liveness property of two processes with five or more threads; that no execution is defined after unloading quantifies over all of them.",
  [SI + ":28-40", SI + ":61-68", LK + ":71-97", LK + ":136-188", AC + ":22-81", AP + ":25-37"])

p("Every Initialize of SysInfo adds an action provider that stays for ever",
  "Initialize, Run, Deinitialize and the destructor of a SysInfo instance are called in any order, while messages come to its bus and other code makes and deletes subscribers there. The history is defined exactly if every Deinitialize is the first one after an Initialize, a sending instance does not run between Deinitialize and the next Initialize, nothing is called on a destroyed instance, and after its destruction no string comes on \"/sysinfo\" unless every Initialize was made up for, and no request with an invocation id comes on \"/sysinfoaction/request\" unless there never was an Initialize; anything else is undefined behaviour. A string on \"/sysinfo\" is logged once for every Initialize that no Deinitialize made up for. A request is answered once for every Initialize there ever was. Anything but a string on \"/sysinfo\", and a request without invocation id, make exactly one exception leave the loop over the subscribers if there is a subscriber of the instance for it. Messages on other topics do nothing. A round of Run publishes one message if the instance sends, is initialised and its bus is attached. Of the two publishers and two subscribers that each Initialize creates, one of each is never removed.",
  "all histories of calls, messages and subscriptions, sending or not, all buses and their other subscribers and publishers",
  "Any sequence of calls has to be considered; duplicated answers and leaked providers show only after several reloads.",
  [SI + ":17-68", BH + ":75-81", BH + ":122-148", BUS + ":186-193"])

p("Deleting a subscriber waits for its callback, stopping and replacing the callback do not",
  "When DeleteSubscriber has returned on the bus of the subscriber, no callback of the subscriber is running or will ever run, so what the callback uses may be destroyed. While a callback runs, creating and deleting subscribers waits exactly on the bus of its subscriber, also for other subscribers of that bus, and the wait ends when the callbacks of that bus return. Stop, Detach, setting another callback or none, creating or deleting publishers, and DeleteSubscriber on another bus return while the callback is still running. DeletePublisher and Detach do not wait for calls of Publish in progress: each still puts its message into the queue afterwards.",
  "all reachable states of a hierarchy with any number of threads, all subscribers, all later executions",
  "The window between an invocation and its return is hit by chance only; that no later execution runs the callback is a statement about all of them.",
  [BUS + ":107-125", BUS + ":171-175", BUS + ":181-216", BH + ":64-88", SUB + ":26-53"])

p("json-c is never given back what an import takes from it",
  "Every import of a JSON text makes a tokener, and a document unless the text is refused or is the word null. An import uses nothing that the library does not have any more and yields the datagram described by C18. After any sequence of imports, whatever is done to the datagrams in between, every tokener and every document made for them still exists: memory grows by one or two blocks with each import.",
  "all texts and results of the tokener, all sequences of imports, anything done to the datagrams in between",
  "A leak does not change any result; that nothing is ever released is a statement about all histories.",
  [RD + ":404-423", RD + ":RawDatagram::ParseJsonObject"])

p("A consumer remembers exactly the requests without a response",
  "With distinct invocation ids, a request is among the open requests of its ActionConsumer, under its id and with its callback, exactly as long as no call of that callback has returned: from its registration on, while the callback runs, and after it has thrown. Nothing else is among them, and there are as many entries as such requests. If no callback of the consumer throws and none is running, these are the requests to which no response has reached its subscriber since they were made. So blocking requests that timed out and requests that nobody serves are kept for ever.",
  "all reachable states of a hierarchy with any number of threads, consumers, providers and requests",
  "The table is private; that it neither forgets nor keeps too much concerns all interleavings of requests, timeouts and responses.",
  ["src/lamppost/bus/ActionConsumer.cpp:22-81", BH + ":148-172"])

p("A request whose id is drawn again is never answered",
  "When a consumer registers a request under an invocation id it has already used, the callback registered before is not called for any later response with this id, unless it is registered under it again: a response always calls the callback that its consumer has registered last under its id, even if it answers an earlier request. A blocking Request that has not been answered by then stays unanswered whatever arrives: its flag waiting stays true, so that only its timeout can end it, and if it returns, then with an empty datagram.",
  "all reachable states, all requests that reuse an id, all later executions with any number of threads, consumers and providers",
  "Invocation ids are random; tests do not meet two equal ones, and the loss concerns everything that may happen afterwards.",
  ["src/lamppost/bus/ActionConsumer.cpp:22-81", BH + ":148-172"])
