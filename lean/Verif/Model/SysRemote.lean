import Verif.Model.SysInfo
import Verif.Model.Remote
/-!
# Two hosts joined by links, one of them with the SysInfo plugin

`Verif.Model.Remote` with the code of `Verif.Model.SysInfo` on the second host.
-/
namespace LP.SysRemote
open LP.Action (Next)
open LP.Remote (End put hop sends)
open LP.Bus (BMsg)

/-- A host, a host with an instance of SysInfo (SysInfo.h:20-25), and the messages on their way to the first (`false`) and the second
(`true`). Simplifications as in `Verif.Model.Remote` (Bus.h:36-60, Link.h:19-33). -/
structure St where
  peer : Action.St
  sys : SysInfo.St
  way : Bool → List BMsg

/-- What can happen: an event on the first host, one on the host with the plugin (SysInfo.cpp:17-68), a link receives the `i`-th message
on its way to its host (Link.cpp:136-188). -/
inductive Act where
  | peer (a : Action.Act)
  | sys (a : SysInfo.Act)
  | receive (s : Bool) (i : Nat)

/-- One event: those of `Verif.Model.Remote` (Link.cpp:72-97, 136-188), where the second host does what the plugin's code allows
(SysInfo.cpp:17-68). The thread of the link publishes what it receives (Link.cpp:160-184). -/
def step (ends : Bool → End) (σ : St) : Act → Next St
  | .peer a => match Action.step σ.peer a with
    | .cannot => .cannot
    | .undefined => .undefined
    | .to τ => .to ⟨τ, σ.sys, put σ.way true (σ.way true ++ sends (ends false) σ.peer τ)⟩
  | .sys a => match SysInfo.step σ.sys a with
    | .cannot => .cannot
    | .undefined => .undefined
    | .to τ => .to ⟨σ.peer, τ, put σ.way false (σ.way false ++ sends (ends true) σ.sys.world τ.world)⟩
  | .receive false i => match (σ.way false)[i]? with
    | none => .cannot
    | some m => match Action.step σ.peer (.bus (.publish (ends false).bus (Net.arrive (hop ends false) m))) with
      | .cannot => .cannot
      | .undefined => .undefined
      | .to τ => .to ⟨τ, σ.sys, put σ.way false ((σ.way false).eraseIdx i)⟩
  | .receive true i => match (σ.way true)[i]? with
    | none => .cannot
    | some m => match SysInfo.step σ.sys (.world (.bus (.publish (ends true).bus (Net.arrive (hop ends true) m)))) with
      | .cannot => .cannot
      | .undefined => .undefined
      | .to τ => .to ⟨σ.peer, τ, put σ.way true ((σ.way true).eraseIdx i)⟩

end LP.SysRemote
