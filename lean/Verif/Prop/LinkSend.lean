import Verif.Lemma.LinkSend
/-!
# What a link sends while it is in use (C54 under concurrency)
-/
namespace LP.LinkConc

/-- C54: from the moment the bus reaches the subscriber of a link with a message that is not the link's own until the callback
has returned, whatever the worker and the owner do meanwhile (`Stop` and the beginning of `Deinitialize` included), exactly
one message is sent on each publishing socket that was made, to the servers first. -/
theorem C54_sent_under_concurrency {ctx : Bool} {made : Sock → Bool} {σ σ' : St} {as : List Act} (h : Reachable ctx made σ)
    (hb : σ.bus = .before) (hr : σ.registered = true) (ha : .enter ∉ as) (he : exec σ (.bus true :: as) = some σ')
    (hend : σ'.bus = .after ∨ σ'.bus = .away) :
    sent σ'.calls = sent σ.calls ++ [.serverPub, .clientPub].filter (fun s => ctx && made s) := by
  have hi := h.inv
  have hp : σ.ptr = (fun s => ctx && made s) := funext (h.ptr hr)
  have h1 : step σ (.bus true) = some { σ with bus := .test .serverPub } := by simp [step, busStep, hb, hr]
  simp only [exec, h1, Option.bind] at he
  have := send_exec as _ (inv_step hi h1) ha nofun he
  rcases hend with e | e <;> rw [e] at this <;> simpa [toSend, hp] using this

/-- C54: a message of the link's own, or any message once the subscriber is gone, is not sent, whatever the other threads do. -/
theorem C54_not_sent_under_concurrency {ctx : Bool} {made : Sock → Bool} {σ σ' : St} {as : List Act} {p : Bool} (h : Reachable ctx made σ)
    (hb : σ.bus = .before) (hr : σ.registered = false ∨ p = false) (ha : .enter ∉ as) (he : exec σ (.bus p :: as) = some σ') :
    sent σ'.calls = sent σ.calls ∧ ¬ InCallback σ'.bus := by
  have hi := h.inv
  have h1 : step σ (.bus p) = some { σ with bus := .after } := by rcases hr with e | e <;> simp [step, busStep, hb, e]
  simp only [exec, h1, Option.bind] at he
  have hk := send_exec as _ (inv_step hi h1) ha nofun he
  have hq := after_exec as _ (.inl rfl) ha he
  rcases hq with e | e <;> rw [e] at hk ⊢ <;> exact ⟨by simpa [toSend] using hk, id⟩

/-- A message for a link with both publishing sockets; the worker receives and `Deinitialize` begins while it is sent. -/
def busySend : List Act := [.worker true, .worker true, .bus true, .worker true, .deinitialize, .bus true, .worker true, .bus true,
  .bus true, .bus true, .bus true, .worker true, .bus true, .bus true]

-- The hypotheses: both sockets exist and other threads run in between; then only the one for clients
example : ∃ σ σ', Reachable true (fun _ => true) σ ∧ σ.bus = .before ∧ σ.registered = true ∧ exec σ (.bus true :: busySend) = some σ' ∧
    σ'.bus = .after ∧ σ'.owner = .remove ∧ σ'.calls = [.use .serverSub, .use .serverPub, .use .clientPub] :=
  ⟨_, _, ⟨[.enter], rfl⟩, rfl, rfl, rfl, rfl, rfl, rfl⟩
example : ∃ σ σ', Reachable true (fun s => s == .clientPub) σ ∧ σ.bus = .before ∧ σ.registered = true ∧
    exec σ (.bus true :: List.replicate 5 (.bus true)) = some σ' ∧ σ'.bus = .after ∧ σ'.calls = [.use .clientPub] :=
  ⟨_, _, ⟨[.enter], rfl⟩, rfl, rfl, rfl, rfl, rfl⟩
-- A message of its own; a message after the subscriber was removed
example : ∃ σ σ', Reachable true (fun _ => true) σ ∧ σ.bus = .before ∧ σ.registered = true ∧
    exec σ (.bus false :: [.worker true, .bus true]) = some σ' ∧ σ'.bus = .away :=
  ⟨_, _, ⟨[.enter], rfl⟩, rfl, rfl, rfl, rfl⟩
example : ∃ σ σ', Reachable true (fun _ => true) σ ∧ σ.bus = .before ∧ σ.registered = false ∧
    exec σ (.bus true :: [.worker true, .owner]) = some σ' ∧ σ'.bus = .after ∧ σ'.owner = .lock 1 :=
  ⟨_, _, ⟨[.deinitialize, .owner, .enter], rfl⟩, rfl, rfl, rfl, rfl, rfl⟩

end LP.LinkConc
