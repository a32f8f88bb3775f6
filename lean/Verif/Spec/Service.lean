import Verif.Model.Service
/-!
# What a Windows service may report
-/
namespace LP.Svc

/-- The first report. -/
def first : Status := ⟨.startPending, false, 1⟩

/-- A report made after RUNNING: STOPPED with checkpoint 0, or STOP_PENDING with a positive one. -/
def Closing (s : Status) : Prop := s.accepts = true ∧
  ((s.phase = .stopped ∧ s.checkpoint = 0) ∨ (s.phase = .stopPending ∧ 0 < s.checkpoint))

/-- The report that ends the start: RUNNING, or STOPPED if there is no event. -/
def Opened (s : Status) : Prop := s.accepts = true ∧ s.checkpoint = 0 ∧ (s.phase = .running ∨ s.phase = .stopped)

/-- The sequence of reports of one life of the service. -/
def Orderly : List Status → Prop
  | [] => True
  | [s] => s = first
  | s :: t :: rest => s = first ∧ Opened t ∧ ∀ r ∈ rest, Closing r

/-- `CreateEvent` and everything up to the wait has been done, the event not yet noticed. -/
def Waiting (σ : St) : Prop := σ.pc = .ask ∨ σ.pc = .wait

/-- `LampPost::Start` has been called or is going to be, but `mRootBus->Start()` is yet to come. -/
def NotYet (σ : St) : Prop := σ.host.pc = .made ∨ σ.host.pc = .setup ∨ σ.host.pc = .config ∨ σ.host.pc = .starting

/-- Nothing but `Init` stops the root bus. -/
def NobodyElse (as : List Act) : Prop := ∀ a ∈ as, a ≠ .host (.bus (.stop 0))

end LP.Svc
