import Verif.Lemma.ActionFrame2
import Verif.Lemma.BusMore
/-!
# Concrete executions of the action layer
-/
namespace LP.Action

/-- The state after a sequence of events from a fresh hierarchy. -/
def play (name : Str) (as : List Act) : Option St :=
  (initial name).bind (fun σ => match exec σ as with | .to σ' => some σ' | _ => none)

theorem play_reachable {name : Str} {as : List Act} {σ : St} (h : play name as = some σ) : Reachable σ := by
  unfold play at h
  cases hi : initial name with
  | none => simp [hi] at h
  | some σ₀ =>
    simp only [hi, Option.bind_some] at h
    cases he : exec σ₀ as with
    | cannot => simp [he] at h
    | undefined => simp [he] at h
    | to τ => simp [he] at h; subst h; exact ⟨name, σ₀, as, hi, he⟩

theorem play_obs {β : Type} (name : Str) (as : List Act) (f : St → β) (v : β) (h : (play name as).map f = some v) :
    ∃ σ, Reachable σ ∧ f σ = v := by
  cases hp : play name as with
  | none => simp [hp] at h
  | some σ => simp [hp] at h; exact ⟨σ, play_reachable hp, h⟩

/-- As `play_obs`, with a second sequence of events from the state reached. -/
theorem play_obs2 {β : Type} (name : Str) (as bs : List Act) (f : St → St → β) (v : β)
    (h : ((play name as).bind (fun σ => match exec σ bs with | .to σ' => some (f σ σ') | _ => none)) = some v) :
    ∃ σ σ', Reachable σ ∧ exec σ bs = .to σ' ∧ f σ σ' = v := by
  cases hp : play name as with
  | none => simp [hp] at h
  | some σ =>
    simp only [hp, Option.bind_some] at h
    cases he : exec σ bs with
    | cannot => simp [he] at h
    | undefined => simp [he] at h
    | to τ => simp [he] at h; exact ⟨σ, τ, play_reachable hp, he, h⟩

/-- A root with one consumer (publisher 0, subscriber 0) and one provider (subscriber 1, publisher 1) on topic "a",
started. -/
def setup : List Act :=
  [.bus (.createPub 0 (bs "a/request")), .bus (.createSub 0 (bs "a/response") none), .consumer 0 0 (bs "a"),
   .bus (.createSub 0 (bs "a/request") none), .bus (.createPub 0 (bs "a/response")), .provider 1 1 (bs "a") (some 9),
   .bus .start]

/-- The bus thread goes on for `n` steps. -/
def thread (n : Nat) : List Act := List.replicate n (.run .go)

/-- A request with callback 5 sent by consumer 0. -/
def asking (id : Str) (n : Int32) : List Act := [.request 0 id 5 (.value (.int n)), .send 0, .bus (.push 0)]

/-- A response by provider 0. -/
def answering (id : Str) (n : Int32) : List Act := [.respond 0 id (.value (.int n)), .bus (.push 0)]

/-- An integer value, for comparing outcomes. -/
def asInt : Tree → Option Int32
  | .value (.int n) => some n
  | _ => none

/-- An answer as plain data: consumer, id, callback, integer content. -/
structure Answer where
  cons : Nat
  id : Str
  cb : Cb
  content : Option Int32
  deriving DecidableEq

/-- The answers as plain data. -/
def plainAnswers (evs : List Ev) : List Answer :=
  evs.filterMap (fun e => match e with
    | .answered c id cb t => some ⟨c, id, cb, asInt t⟩
    | .requested .. => none)

end LP.Action
