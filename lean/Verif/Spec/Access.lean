import Verif.Model.Access
/-!
# Specification: a data race
-/
namespace LP

/-- Two statements conflict on `m`: both access it and one of them writes. -/
def Conflict {M : Type} (m : M) (a b : List (M × Bool)) : Prop := ∃ u v, (m, u) ∈ a ∧ (m, v) ∈ b ∧ (u = true ∨ v = true)

/-- Two threads of a link are about to execute conflicting statements. -/
def LinkConc.Races (m : LinkConc.Mem) (σ : LinkConc.St) : Prop :=
  Conflict m (LinkConc.busAccess σ.bus) (LinkConc.workerAccess σ.worker) ∨
  Conflict m (LinkConc.busAccess σ.bus) (LinkConc.ownerAccess σ.owner) ∨
  Conflict m (LinkConc.workerAccess σ.worker) (LinkConc.ownerAccess σ.owner)

/-- Two of the three threads of the service are about to execute conflicting statements. -/
def Svc.Races (m : Svc.Mem) (σ : Svc.St) : Prop :=
  Conflict m (Svc.mainAccess σ.pc) (Svc.handlerAccess σ.handler) ∨ Conflict m (Svc.mainAccess σ.pc) (Svc.hostAccess σ.host.pc) ∨
  Conflict m (Svc.handlerAccess σ.handler) (Svc.hostAccess σ.host.pc)

end LP
