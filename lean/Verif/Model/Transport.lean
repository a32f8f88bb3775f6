import Verif.Model.Cmd
/-!
# How a datagram travels from a publisher to a callback
-/
namespace LP

/-- A chain of by-value parameters and members, each copy-constructed (Datagram.cpp:8-15) from the one before. From the
publisher's argument into the queue these are: the parameter of `Publisher::Publish` (Publisher.cpp:20), the parameter of
the lambda in `CreatePublisher` (Bus.h:109), of `Bus::Publish(topic, datagram)` (Bus.cpp:94), of the `Message`
constructor and its member (Message.cpp:6-11), the parameters of `Publish(message)` and of the publishing function
(Bus.cpp:99, 18), and the queue element (Bus.cpp:22). From the queue to a callback: the drained copy (Bus.cpp:159), the
parameters of `Distribute` on each level (Bus.cpp:181) and of `Subscriber::Receive` (Subscriber.cpp:26), the callback's
parameter, `GetDatagram` (Message.cpp:23-26, Subscriber.cpp:39-48). Simplification: parameters are variables that stay in
scope until dropped explicitly, and moves are treated as copies. -/
def hops : Nat → List Nat → List Cmd
  | _, [] => []
  | x, y :: ys => .copyCtor y x :: hops y ys

end LP
