import Verif.Model.LinkConc
/-!
# What proper use of sockets means
-/
namespace LP.LinkConc

/-- A list of ZMQ calls is proper: no call on a null pointer; a socket is closed at most once and not used afterwards;
nothing happens after the context is terminated. -/
structure Proper (l : List Zmq) : Prop where
  noNull : ∀ s, Zmq.useNull s ∉ l
  useBeforeClose : ∀ (i j : Nat) s, l[i]? = some (.close s) → l[j]? = some (.use s) → j < i
  closeOnce : ∀ (i j : Nat) s, l[i]? = some (.close s) → l[j]? = some (.close s) → i = j
  termLast : ∀ (i j : Nat) c, l[i]? = some .term → l[j]? = some c → j ≤ i

/-- A state of a link with context `ctx` and sockets `made`. -/
def Reachable (ctx : Bool) (made : Sock → Bool) (σ : St) : Prop := ∃ as, exec (initial ctx made) as = some σ

/-- The bus thread is inside the callback of the link. -/
def InCallback : BusPc → Prop
  | .test _ => True
  | .want _ => True
  | .send _ => True
  | .unlock _ => True
  | _ => False

/-- The sends among the ZMQ calls (receiving uses the other two sockets). -/
def sent (l : List Zmq) : List Sock :=
  l.filterMap (fun c => match c with
    | .use .serverPub => some .serverPub
    | .use .clientPub => some .clientPub
    | _ => none)

end LP.LinkConc
