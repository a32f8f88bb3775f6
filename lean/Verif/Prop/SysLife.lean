import Verif.Lemma.SysHistory
/-!
# Any history of calls of a SysInfo instance (C137)
-/
namespace LP.SysLife
open LP.Bus (World BMsg)

/-- The hierarchy used in the examples: a root bus with one subscriber and one publisher of other code. -/
def calm : World := { nb := 1, bus := fun _ => ⟨bs "root", [], [0], [0], true, true⟩
                      ns := 1, sub := fun _ => ⟨bs "/x", some 7, 0⟩, np := 1, pub := fun _ => ⟨bs "/x", 0, true⟩, queue := [] }

theorem calm_neat : Neat calm 0 := ⟨by simp [calm], by simp [calm], by simp [calm], by simp [calm], by simp [calm]⟩

/-- A string on "/sysinfo". -/
def text : BMsg := ⟨bs "a", bs "/sysinfo", .value (.str (bs "hi"))⟩

/-- A request for the action, with the invocation id "7". -/
def request : BMsg := ⟨bs "a", bs "/sysinfoaction/request", .dict [(bs "invocationId", .value (.str (bs "7"))), (bs "request", .empty)]⟩

/-- A message without contents on a topic. -/
def bare (topic : Str) : BMsg := ⟨bs "a", topic, .empty⟩

section
variable {b : Nat} {config : Bool} {w : World}

/-- **C137.** A history is defined exactly if it is safe; otherwise it is undefined behaviour. -/
theorem C137_defined_iff (hw : Neat w b) (h : List Act) :
    ((∃ σ, exec (create b config w) h = .to σ) ↔ Safe config h) ∧ (exec (create b config w) h = .ub ↔ ¬Safe config h) := by
  obtain ⟨h1, h2⟩ := exec_char (inv_create (config := config) hw) h
  by_cases hs : Safe config h
  · obtain ⟨τ, e, -⟩ := h1 hs
    rw [e]; simp [hs]
  · rw [h2 hs]; simp [hs]

example : Safe true [.beat, .init, .beat, .message text, .deinit, .init, .init, .deinit, .destroy] ∧ Safe false [.init, .deinit, .beat] ∧
    ¬Safe true [.init, .deinit, .beat] ∧ ¬Safe true [.deinit] ∧ ¬Safe true [.init, .init, .deinit, .deinit] ∧
    ¬Safe true [.init, .destroy, .message text] ∧ ¬Safe true [.init, .deinit, .destroy, .message request] ∧
    Safe true [.init, .deinit, .destroy, .message text] ∧ Safe true [.init, .deinit, .destroy, .message (bare request.topic)] :=
  ⟨(C137_defined_iff calm_neat _).1.1 ⟨_, rfl⟩, (C137_defined_iff calm_neat _).1.1 ⟨_, rfl⟩, (C137_defined_iff calm_neat _).2.1 rfl,
    (C137_defined_iff calm_neat _).2.1 rfl, (C137_defined_iff calm_neat _).2.1 rfl, (C137_defined_iff calm_neat _).2.1 rfl,
    (C137_defined_iff calm_neat _).2.1 rfl, (C137_defined_iff calm_neat _).1.1 ⟨_, rfl⟩, (C137_defined_iff calm_neat _).1.1 ⟨_, rfl⟩⟩

/-- **C137.** A string on "/sysinfo" is logged once for every `Initialize` that no `Deinitialize` made up for. -/
theorem C137_logged (hw : Neat w b) {h : List Act} {σ : St} (he : exec (create b config w) h = .to σ) (hd : ¬Dead h) {m : BMsg} {s : Str}
    (ht : m.topic = bs "/sysinfo") (hm : m.dg = .value (.str s)) :
    exec (create b config w) (h ++ [.message m]) = .to { σ with logged := σ.logged ++ List.replicate (surplus h) s } := by
  have H := inv_of_exec (inv_create hw) he
  rw [exec_snoc, he]
  simp only
  rw [message_ok H m, if_pos ht]
  split
  · rename_i hz; rw [hz]; simp
  · simp [hm, textOf, H.alive.2 hd]

example : ∃ σ, exec (create 0 true calm) [.init, .init, .message text] = .to σ ∧ σ.logged = [bs "hi", bs "hi"] ∧ surplus [.init, .init] = 2 ∧
    ¬Dead [.init, .init] := ⟨_, rfl, rfl, rfl, by simp [Dead]⟩

/-- **C137.** A request for the action is answered once for every `Initialize` there ever was, whether or not `Deinitialize` has been called. -/
theorem C137_answered (hw : Neat w b) {h : List Act} {σ : St} (he : exec (create b config w) h = .to σ) (hd : ¬Dead h) {m : BMsg} {id : Str}
    (ht : m.topic = bs "/sysinfoaction/request") (hm : Action.idOf m.dg = some id) :
    exec (create b config w) (h ++ [.message m]) = .to { σ with responded := σ.responded ++ List.replicate (inits h) id } := by
  have H := inv_of_exec (inv_create hw) he
  rw [exec_snoc, he]
  simp only
  rw [message_ok H m, if_neg (by rw [ht]; decide), if_pos ht]
  split
  · rename_i hz; rw [hz]; simp
  · simp [hm, H.alive.2 hd]

example : ∃ σ, exec (create 0 true calm) [.init, .deinit, .init, .deinit, .message request] = .to σ ∧ σ.responded = [bs "7", bs "7"] ∧
    inits [.init, .deinit, .init, .deinit] = 2 ∧ surplus [.init, .deinit, .init, .deinit] = 0 ∧ Action.idOf request.dg = some (bs "7") :=
  ⟨_, rfl, by decide +kernel, rfl, rfl, rfl⟩

/-- **C137.** A message on any other topic does nothing to the instance, whether it exists or not. -/
theorem C137_other (hw : Neat w b) {h : List Act} {σ : St} (he : exec (create b config w) h = .to σ) {m : BMsg}
    (h0 : m.topic ≠ bs "/sysinfo") (h1 : m.topic ≠ bs "/sysinfoaction/request") : exec (create b config w) (h ++ [.message m]) = .to σ := by
  have H := inv_of_exec (inv_create hw) he
  rw [exec_snoc, he]
  simp only
  rw [message_ok H m, if_neg h0, if_neg h1]

example : ∃ σ, exec (create 0 true calm) [.init, .destroy] = .to σ ∧ (bare (bs "/sysinfoaction/response")).topic ≠ bs "/sysinfo" ∧
    (bare (bs "/sysinfoaction/response")).topic ≠ bs "/sysinfoaction/request" := ⟨_, rfl, by decide, by decide⟩

/-- **C137.** Something other than a string on "/sysinfo", and a request without invocation id, make the first lambda throw: one exception
leaves the loop over the subscribers, and nothing is logged or answered, even if the instance is gone. If there is no lambda nothing
happens. -/
theorem C137_throws (hw : Neat w b) {h : List Act} {σ : St} (he : exec (create b config w) h = .to σ) {m : BMsg}
    (hm : (m.topic = bs "/sysinfo" ∧ (∀ s, m.dg ≠ .value (.str s))) ∨ (m.topic = bs "/sysinfoaction/request" ∧ Action.idOf m.dg = none)) :
    exec (create b config w) (h ++ [.message m]) =
      .to { σ with escaped := σ.escaped + if (if m.topic = bs "/sysinfo" then surplus h else inits h) = 0 then 0 else 1 } := by
  have H := inv_of_exec (inv_create hw) he
  rw [exec_snoc, he]
  simp only
  rw [message_ok H m]
  rcases hm with ⟨e1, e2⟩ | ⟨e1, e2⟩
  · rw [if_pos e1, if_pos e1]
    have : textOf m.dg = none := Classical.byContradiction (fun hn => by
      obtain ⟨s, hs⟩ := textOf_some.2 hn
      exact e2 s hs)
    split
    · rfl
    · rw [this]
  · have hne : m.topic ≠ bs "/sysinfo" := by rw [e1]; decide
    rw [if_neg hne, if_neg hne, if_pos e1]
    split
    · rfl
    · rw [e2]

example : ∃ σ τ, exec (create 0 true calm) [.init, .init, .deinit] = .to σ ∧
    exec (create 0 true calm) [.init, .init, .deinit, .message (bare (bs "/sysinfo"))] = .to τ ∧ τ.escaped = 1 ∧
    (∀ s, (bare (bs "/sysinfo")).dg ≠ .value (.str s)) ∧ Action.idOf (bare request.topic).dg = none :=
  ⟨_, _, rfl, rfl, rfl, fun _ h => (nomatch h), rfl⟩

/-- **C137.** Every `Initialize` leaves something behind on the bus for ever, even if every one is followed by `Deinitialize`: of the two
publishers it creates only one is ever deleted. -/
theorem C137_leak (hw : Neat w b) {h : List Act} {σ : St} (he : exec (create b config w) h = .to σ) :
    h.countP Act.isDeinit ≤ inits h ∧
    (σ.world.bus b).pubs.length = (w.bus b).pubs.length + inits h + (inits h - h.countP Act.isDeinit) ∧
    ((σ.world.bus b).subs.filter (fun s => (σ.world.sub s).cb == some 1)).length = inits h ∧
    ((σ.world.bus b).subs.filter (fun s => (σ.world.sub s).cb == some 0)).length = surplus h := by
  have H := inv_of_exec (inv_create hw) he
  have h1 := H.count
  have h2 := H.more
  simp only [deinits] at h1 h2
  exact ⟨h2, by omega, H.req.count, H.log.count⟩

example : ∃ σ, exec (create 0 true calm) [.init, .deinit, .init, .deinit, .init, .deinit] = .to σ ∧ (σ.world.bus 0).pubs.length = 4 ∧
    (calm.bus 0).pubs.length = 1 ∧ (σ.world.bus 0).subs.length = 4 := ⟨_, rfl, rfl, rfl, rfl⟩

/-- **C137.** A round of `Run` publishes one string on "/sysinfo" in the name of the bus if the instance is configured to, was initialised
and the bus is still attached, and does nothing else. -/
theorem C137_beat (hw : Neat w b) {h : List Act} {σ : St} (he : exec (create b config w) h = .to σ) (hs : Safe config (h ++ [.beat])) :
    (config = true ∧ Up h ∧ (w.bus b).attached = true → exec (create b config w) (h ++ [.beat]) =
      .to { σ with world := { σ.world with queue := σ.world.queue ++ [⟨(w.bus b).name, bs "/sysinfo", .value (.str (bs "Hello Bus!"))⟩] } }) ∧
    (¬(config = true ∧ Up h ∧ (w.bus b).attached = true) → exec (create b config w) (h ++ [.beat]) = .to σ) := by
  have H := inv_of_exec (inv_create hw) he
  obtain ⟨k1, k2, -⟩ := kept_exec he
  have ha := (safe_snoc.1 hs).2
  have hal := H.alive.2 ha.1
  have hup : Up h → inits h ≠ 0 := fun ⟨p, q, e, _⟩ => by
    rw [e]; simp [inits, List.countP_append, Act.isInit]
  rw [H.bus] at k1 k2
  simp only [create] at k1 k2
  rw [exec_snoc, he]
  simp only [step, hal, if_true, round]
  constructor
  · rintro ⟨hc, hu, hat⟩
    obtain ⟨s, p, e1, e2, -, -, -, e6⟩ := H.up hu
    have : σ.send = true := by rw [H.send, hc]; simpa using hup hu
    simp only [this, if_true, e2, Bus.pubPublish, e6, Bus.publishTopic, Bus.publishMsg, k1, k2, hat, Bus.push]
  · intro hn
    by_cases hse : σ.send = true
    · rw [if_pos hse]
      rw [H.send, Bool.and_eq_true] at hse
      have hu : Up h := (ha.2 hse.1).resolve_left (by simpa using hse.2)
      obtain ⟨s, p, e1, e2, -, -, -, e6⟩ := H.up hu
      have hat : ¬(w.bus b).attached = true := fun e => hn ⟨hse.1, hu, e⟩
      simp only [e2, Bus.pubPublish, e6, Bus.publishTopic, Bus.publishMsg, k2, if_neg hat, if_true]
    · rw [if_neg hse]

example : ∃ σ τ, exec (create 0 true calm) [.init, .init] = .to σ ∧ exec (create 0 true calm) [.init, .init, .beat] = .to τ ∧
    τ.world.queue.length = 1 ∧ Safe true [.init, .init, .beat] ∧ Up [.init, .init] ∧ (calm.bus 0).attached = true :=
  ⟨_, _, rfl, rfl, rfl, (C137_defined_iff calm_neat _).1.1 ⟨_, rfl⟩, ⟨[.init], [], rfl, by simp⟩, rfl⟩

end

end LP.SysLife
