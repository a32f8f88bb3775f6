import Verif.Model.Action
/-!
# Two requests with the same id
-/
namespace LP.Action

/-- The callback of the request that a consumer has made last under an id (specification of the assignment in
ActionConsumer.cpp:33, in terms of the observed requests). -/
def lastAsked (c : Nat) (id : Str) (l : List Asked) : Option Cb := ((l.filter (fun a => a.cons == c && a.id == id)).getLast?).map (·.cb)

end LP.Action
