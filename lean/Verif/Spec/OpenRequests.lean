import Verif.Spec.Action
/-! # Specification: requests without a response -/
namespace LP.Action

/-- The requests of consumer `c` to which no response has reached subscriber `s` since they were made. -/
def unanswered (c s : Nat) (σ : St) : List Asked :=
  σ.asked.filter (fun a => a.cons == c && (responses s a.id (σ.bus.log.drop a.seen)).isEmpty)

/-- How many calls of the callback of request `id` of consumer `c` have begun. -/
def begun (c : Nat) (id : Str) (σ : St) : Nat := (answers c id σ.evs).length

/-- How many of them have thrown or are still running. -/
def unfinished (c : Nat) (id : Str) (σ : St) : Nat :=
  σ.threw.count (c, id) + if stageOf c id σ.cur = none then 0 else 1

/-- The requests of consumer `c` for which no call of the callback has returned. -/
def unreturned (c : Nat) (σ : St) : List Asked :=
  σ.asked.filter (fun a => a.cons == c && begun c a.id σ == unfinished c a.id σ)

end LP.Action
