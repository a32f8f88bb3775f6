import Verif.Lemma.SysInfoFree
import Verif.Lemma.ActionPlay
import Verif.Lemma.ActionTalk
/-!
# Concrete executions with the SysInfo plugin
-/
namespace LP.SysInfo

/-- The state after loading the plugin on bus `bus` of a hierarchy and some events. -/
def play (pre : List Action.Act) (bus : Nat) (send : Bool) (as : List Act) : Option St :=
  (Action.play (bs "r") pre).bind (fun w => match exec (create w bus send) as with | .to σ => some σ | _ => none)

theorem play_reachable {pre : List Action.Act} {bus : Nat} {send : Bool} {as : List Act} {σ : St} (h : play pre bus send as = some σ) :
    Reachable σ := by
  unfold play at h
  cases hp : Action.play (bs "r") pre with
  | none => simp [hp] at h
  | some w =>
    simp only [hp, Option.bind_some] at h
    cases he : exec (create w bus send) as with
    | cannot => simp [he] at h
    | undefined => simp [he] at h
    | to τ => simp [he] at h; subst h; exact ⟨w, bus, send, as, Action.play_reachable hp, he⟩

theorem play_obs {β : Type} (pre : List Action.Act) (bus : Nat) (send : Bool) (as : List Act) (f : St → β) (v : β)
    (h : (play pre bus send as).map f = some v) : ∃ σ, Reachable σ ∧ f σ = v := by
  cases hp : play pre bus send as with
  | none => simp [hp] at h
  | some σ => simp [hp] at h; exact ⟨σ, play_reachable hp, h⟩

theorem play_obs2 {β : Type} (pre : List Action.Act) (bus : Nat) (send : Bool) (as cs : List Act) (f : St → St → β) (v : β)
    (h : ((play pre bus send as).bind (fun σ => match exec σ cs with | .to σ' => some (f σ σ') | _ => none)) = some v) :
    ∃ σ σ', Reachable σ ∧ exec σ cs = .to σ' ∧ f σ σ' = v := by
  cases hp : play pre bus send as with
  | none => simp [hp] at h
  | some σ =>
    simp only [hp, Option.bind_some] at h
    cases he : exec σ cs with
    | cannot => simp [he] at h
    | undefined => simp [he] at h
    | to τ => simp [he] at h; exact ⟨σ, τ, play_reachable hp, he, h⟩

/-- A started root bus with a consumer of the plugin's action. -/
def client : List Action.Act :=
  [.bus (.createPub 0 (bs "/sysinfoaction/request")), .bus (.createSub 0 (bs "/sysinfoaction/response") none),
   .consumer 0 0 (bs "/sysinfoaction"), .bus .start]

/-- Loading the plugin: publisher 1, subscriber 1, provider 0 with subscriber 2 and publisher 2. -/
def load : List Act := List.replicate 5 .init

/-- Unloading it. -/
def unload : List Act := [.deinit, .deinit, .destroy]

/-- The bus thread goes on for `n` steps. -/
def thread (n : Nat) : List Act := List.replicate n (.world (.run .go))

/-- The request of the consumer goes out. -/
def asking (id : Str) (t : Tree) : List Act := [.world (.request 0 id 5 t), .world (.send 0), .world (.bus (.push 0))]

/-- Some client publishes on the root. -/
def saying (t : Str) (d : Tree) : List Act := [.world (.bus (.publish 0 ⟨bs "r", t, d⟩)), .world (.bus (.push 0))]

/-- Check conditions along an execution. -/
def watch (P : Action.St → Bool) (Q : Action.St → Action.Act → Bool) : St → List Act → Bool
  | σ, [] => P σ.world
  | σ, a :: as => P σ.world && (match a with | .world x => Q σ.world x | _ => true) && match step σ a with
    | .to σ' => watch P Q σ' as
    | _ => true

theorem watch_sound {P : Action.St → Bool} {Q : Action.St → Action.Act → Bool} {P' : Action.St → Prop} {Q' : Action.St → Action.Act → Prop}
    (hP : ∀ τ, P τ = true → P' τ) (hQ : ∀ τ a, Q τ a = true → Q' τ a) {σ : St} {as : List Act} (h : watch P Q σ as = true) :
    Throughout P' σ as ∧ Along Q' σ as := by
  induction as generalizing σ with
  | nil => exact ⟨hP _ h, trivial⟩
  | cons a as ih =>
    simp only [watch, Bool.and_eq_true] at h
    obtain ⟨⟨h1, h2⟩, h3⟩ := h
    refine ⟨⟨hP _ h1, fun τ e => ?_⟩, ⟨fun x e => ?_, fun τ e => ?_⟩⟩
    · rw [e] at h3; exact (ih h3).1
    · subst e; exact hQ _ _ h2
    · rw [e] at h3; exact (ih h3).2

theorem throughout_imp {P Q : Action.St → Prop} (hPQ : ∀ τ, P τ → Q τ) {σ : St} {as : List Act} (h : Throughout P σ as) : Throughout Q σ as := by
  induction as generalizing σ with
  | nil => exact hPQ _ h
  | cons a as ih => exact ⟨hPQ _ h.1, fun τ hτ => ih (h.2 τ hτ)⟩

end LP.SysInfo
