import Verif.Lemma.RaceRun
/-!
# Data races
-/
namespace LP.Race
open Instr Locks.Mtx
open Locks (Mtx)

/-! ## C91: the containers of a bus -/

/-- Whatever clients do on however many threads, no container of any bus is raced on. -/
theorem C91_containers {σ : St} (h : Reach anything start σ) {l : Loc} (hl : Container l) : ¬ Race σ l := by
  have hi := (inv_start (P := anything)).reach h
  cases l with
  | queue => exact hi.no_race (m := queue) fun _ _ h => h
  | subs b => exact hi.no_race (m := subs b) fun _ _ h => h
  | kids b => exact hi.no_race (m := kids b) fun _ _ h => h
  | pubs b => exact hi.no_race (m := pubs b) fun _ _ h => h
  | provs b => exact hi.no_race (m := provs b) fun _ _ h => h
  | cons b => exact hi.no_race (m := cons b) fun _ _ h => h
  | _ => exact hl.elim

/-- The bus thread is about to read the list of subscribers while another thread wants to add one. -/
def listRun : List Act :=
  [.spawn [.createSub 0 true]] ++ steps 0 4 ++ [.spawn [.start], .spawn [.createSub 0 true]] ++ steps 1 15 ++ steps 2 1

example : heads (exec start listRun) = some [none, some (.read (.subs 0)), some (lock (subs 0))] := by decide +kernel

/-! ## C92: what else can be raced on, and by what -/

/-- Callbacks of subscribers are raced on exactly if callbacks are given to existing subscribers while the bus runs
(`CreateActionProvider` and `CreateActionConsumer` do that), or taken away via another bus. -/
theorem C92_callback (P : Policy) :
    (∀ σ₀ σ, Ready σ₀ → Reach P σ₀ σ → ∀ b s, ¬ Race σ (.callback b s)) ↔ P.setters = false := by
  constructor
  · intro h
    refine flag_false fun hf => ?_
    have hle : Policy.le { careful with setters := true } P := by simp_all [Policy.le, careful]
    obtain ⟨σ₀, σ, h1, h2, h3⟩ := race_of (P := { careful with setters := true })
      (init := [.spawn [.createSub 0 true]] ++ steps 0 4)
      (more := [.spawn [.start], .spawn [.setCb 0 0]] ++ distributing 1 ++ steps 2 1)
      (l := .callback 0 0) (i := .read (.callback 0 0))
      (i' := .write (.callback 0 0) (.setCb 0 0 (some .user)))
      (by decide +kernel) (by decide +kernel) (by decide +kernel) ⟨rfl, rfl⟩ ⟨rfl, rfl⟩ (.inr rfl)
    exact h σ₀ σ h1 (reach_mono hle h2) 0 0 h3
  · intro hf σ₀ σ h1 h2 b s
    exact (h1.inv.reach h2).no_race (m := subs b) fun H w hm => hm.resolve_left (by simp [hf])

/-- So creating a provider while the bus runs is enough: the subscriber is in the list before it gets its callback. -/
theorem C92_provider : ∃ σ₀ σ, Ready σ₀ ∧ Reach { careful with setters := true } σ₀ σ ∧ Race σ (.callback 0 0) :=
  race_of (init := [.spawn []]) (more := [.spawn [.start], .spawn [.createProvider 0]] ++ steps 2 10 ++ distributing 1)
    (i := .read (.callback 0 0)) (i' := .write (.callback 0 0) (.setCb 0 0 (some (.request 0))))
    (by decide +kernel) (by decide +kernel) (by decide +kernel) ⟨rfl, rfl⟩ ⟨rfl, rfl⟩ (.inr rfl)

/-- The same for a consumer. -/
theorem C92_consumer : ∃ σ₀ σ, Ready σ₀ ∧ Reach { careful with setters := true } σ₀ σ ∧ Race σ (.callback 0 0) :=
  race_of (init := [.spawn []]) (more := [.spawn [.start], .spawn [.createConsumer 0]] ++ steps 2 10 ++ distributing 1)
    (i := .read (.callback 0 0)) (i' := .write (.callback 0 0) (.setCb 0 0 (some (.response 0))))
    (by decide +kernel) (by decide +kernel) (by decide +kernel) ⟨rfl, rfl⟩ ⟨rfl, rfl⟩ (.inr rfl)

/-- The function of a publisher is raced on exactly if publishers are deleted. -/
theorem C92_publisher (P : Policy) :
    (∀ σ₀ σ, Ready σ₀ → Reach P σ₀ σ → ∀ b p, ¬ Race σ (.function b p)) ↔ P.deletes = false := by
  constructor
  · intro h
    refine flag_false fun hf => ?_
    have hle : Policy.le { careful with deletes := true } P := by simp_all [Policy.le, careful]
    obtain ⟨σ₀, σ, h1, h2, h3⟩ := race_of (P := { careful with deletes := true })
      (init := [.spawn [.createPub 0]] ++ steps 0 4)
      (more := [.spawn [.pubPublish 0 0], .spawn [.deletePub 0 0 0]] ++ steps 1 1 ++ steps 2 3)
      (l := .function 0 0) (i := .read (.function 0 0))
      (i' := .write (.function 0 0) (.silence 0 0))
      (by decide +kernel) (by decide +kernel) (by decide +kernel) ⟨rfl, rfl⟩ ⟨rfl, rfl⟩ (.inr rfl)
    exact h σ₀ σ h1 (reach_mono hle h2) 0 0 h3
  · intro hf σ₀ σ h1 h2 b p
    exact (h1.inv.reach h2).no_race_read fun H hm => by simpa [hf] using hm rfl

/-- The function by which a bus forwards messages to the root is raced on exactly if buses are detached. -/
theorem C92_forward (P : Policy) :
    (∀ σ₀ σ, Ready σ₀ → Reach P σ₀ σ → ∀ b, ¬ Race σ (.forward b)) ↔ P.detaches = false := by
  constructor
  · intro h
    refine flag_false fun hf => ?_
    have hle : Policy.le { careful with detaches := true } P := by simp_all [Policy.le, careful]
    obtain ⟨σ₀, σ, h1, h2, h3⟩ := race_of (P := { careful with detaches := true })
      (init := [.spawn [.createChild 0]] ++ steps 0 8)
      (more := [.spawn [.publish 1], .spawn [.detach 1]] ++ steps 1 1 ++ steps 2 2)
      (l := .forward 1) (i := .read (.forward 1))
      (i' := .write (.forward 1) (.detach 1))
      (by decide +kernel) (by decide +kernel) (by decide +kernel) ⟨rfl, rfl⟩ ⟨rfl, rfl⟩ (.inr rfl)
    exact h σ₀ σ h1 (reach_mono hle h2) 1 h3
  · intro hf σ₀ σ h1 h2 b
    exact (h1.inv.reach h2).no_race_read fun H hm => by simpa [hf] using hm rfl

/-- The open requests of a consumer are raced on exactly if requests are made outside callbacks. -/
theorem C92_requests (P : Policy) :
    (∀ σ₀ σ, Ready σ₀ → Reach P σ₀ σ → ∀ c, ¬ Race σ (.requests c)) ↔ P.outside = false := by
  constructor
  · intro h
    refine flag_false fun hf => ?_
    have hle : Policy.le { careful with outside := true } P := by simp_all [Policy.le, careful]
    obtain ⟨σ₀, σ, h1, h2, h3⟩ := race_of (P := { careful with outside := true })
      (init := [.spawn [.createConsumer 0]] ++ steps 0 11)
      (more := [.spawn [.start], .spawn [.requestAsync 0]] ++ distributing 1 ++ steps 1 1 ++ [.step 1 (.run [])] ++ steps 1 1 ++ steps 2 1)
      (l := .requests 0) (i := .read (.requests 0))
      (i' := .write (.requests 0) .nothing)
      (by decide +kernel) (by decide +kernel) (by decide +kernel) ⟨rfl, rfl⟩ ⟨rfl, rfl⟩ (.inr rfl)
    exact h σ₀ σ h1 (reach_mono hle h2) 0 h3
  · intro hf σ₀ σ h1 h2 c
    exact (h1.inv.reach h2).no_race (m := notifier) fun H w hm => hm.resolve_left (by simp [hf])

/-- No bus thread is needed for that: two requests with the same consumer are enough. -/
theorem C92_two_requests : ∃ σ₀ σ, Ready σ₀ ∧ Reach { careful with outside := true } σ₀ σ ∧ Race σ (.requests 0) :=
  race_of (init := [.spawn [.createConsumer 0]] ++ steps 0 11)
    (more := [.spawn [.requestAsync 0], .spawn [.request 0]] ++ steps 1 1 ++ steps 2 1)
    (i := .write (.requests 0) .nothing) (i' := .write (.requests 0) .nothing)
    (by decide +kernel) (by decide +kernel) (by decide +kernel) ⟨rfl, rfl⟩ ⟨rfl, rfl⟩ (.inr rfl)

/-- The callback of a provider is raced on exactly if providers are reset. -/
theorem C92_handler (P : Policy) :
    (∀ σ₀ σ, Ready σ₀ → Reach P σ₀ σ → ∀ r, ¬ Race σ (.handler r)) ↔ P.resets = false := by
  constructor
  · intro h
    refine flag_false fun hf => ?_
    have hle : Policy.le { careful with resets := true } P := by simp_all [Policy.le, careful]
    obtain ⟨σ₀, σ, h1, h2, h3⟩ := race_of (P := { careful with resets := true })
      (init := [.spawn [.createProvider 0]] ++ steps 0 11)
      (more := [.spawn [.start], .spawn [.resetProvider 0]] ++ distributing 1 ++ steps 1 1 ++ [.step 1 (.run [])] ++ steps 1 1 ++ steps 2 1)
      (l := .handler 0) (i := .read (.handler 0))
      (i' := .write (.handler 0) .nothing)
      (by decide +kernel) (by decide +kernel) (by decide +kernel) ⟨rfl, rfl⟩ ⟨rfl, rfl⟩ (.inr rfl)
    exact h σ₀ σ h1 (reach_mono hle h2) 0 h3
  · intro hf σ₀ σ h1 h2 r
    exact (h1.inv.reach h2).no_race_read fun H hm => by simpa [hf] using hm rfl

/-- The answer of a request is raced on exactly if a request that was made outside callbacks gives up waiting. -/
theorem C92_response (P : Policy) :
    (∀ σ₀ σ, Ready σ₀ → Reach P σ₀ σ → ∀ n, ¬ Race σ (.response n)) ↔ ¬ (P.outside = true ∧ P.timeouts = true) := by
  constructor
  · rintro h ⟨hf, hg⟩
    have hle : Policy.le { careful with outside := true, timeouts := true } P := by simp_all [Policy.le, careful]
    obtain ⟨σ₀, σ, h1, h2, h3⟩ := race_of (P := { careful with outside := true, timeouts := true })
      (init := [.spawn [.createConsumer 0]] ++ steps 0 11)
      (more := [.spawn [.start], .spawn [.request 0]] ++ steps 2 13 ++ distributing 1 ++ steps 1 1 ++
        [.step 1 (.answer 0)] ++ steps 1 4 ++ [.step 2 .no])
      (l := .response 0) (i := .write (.response 0) .nothing) (i' := .read (.response 0))
      (by decide +kernel) (by decide +kernel) (by decide +kernel) ⟨rfl, rfl⟩ ⟨rfl, rfl⟩ (.inl rfl)
    exact h σ₀ σ h1 (reach_mono hle h2) 0 h3
  · intro hf σ₀ σ h1 h2 n
    have hi := (h1.inv (P := P)).reach h2
    by_cases ho : P.outside = true
    · have ht : P.timeouts = false := flag_false fun e => hf ⟨ho, e⟩
      exact ((h1.rinv h1.1.fresh).reach ht h1.inv h2).no_race hi n
    · exact hi.no_race (m := notifier) fun H w hm => hm.2.resolve_left ho

/-! ## C93: the rules -/

/-- There is no data race at all exactly if clients keep to these rules once the bus is in use: no callback is given to
an existing subscriber, no provider or consumer is created, no publisher is deleted, no bus is detached, requests are
made in callbacks only, and no provider is reset. -/
theorem C93_rules (P : Policy) :
    (∀ σ₀ σ, Ready σ₀ → Reach P σ₀ σ → ∀ l, ¬ Race σ l) ↔
      P.setters = false ∧ P.deletes = false ∧ P.detaches = false ∧ P.outside = false ∧ P.resets = false := by
  constructor
  · intro h
    exact ⟨(C92_callback P).1 fun a b c d _ _ => h a b c d _, (C92_publisher P).1 fun a b c d _ _ => h a b c d _,
      (C92_forward P).1 fun a b c d _ => h a b c d _, (C92_requests P).1 fun a b c d _ => h a b c d _,
      (C92_handler P).1 fun a b c d _ => h a b c d _⟩
  · rintro ⟨h1, h2, h3, h4, h5⟩ σ₀ σ hr hs l
    have hc : Container l → ¬ Race σ l := fun hl => by
      refine C91_containers (reach_trans hr.1 (reach_mono ?_ hs)) hl
      exact ⟨fun _ => rfl, fun _ => rfl, fun _ => rfl, fun _ => rfl, fun _ => rfl, fun _ => rfl⟩
    cases l with
    | callback b s => exact (C92_callback P).2 h1 σ₀ σ hr hs b s
    | function b p => exact (C92_publisher P).2 h2 σ₀ σ hr hs b p
    | forward b => exact (C92_forward P).2 h3 σ₀ σ hr hs b
    | requests c => exact (C92_requests P).2 h4 σ₀ σ hr hs c
    | handler r => exact (C92_handler P).2 h5 σ₀ σ hr hs r
    | response n => exact (C92_response P).2 (by simp [h4]) σ₀ σ hr hs n
    | _ => exact hc trivial

/-- The rules leave something to do: while the bus thread invokes the callback of a provider, which makes a request,
another thread publishes and adds a subscriber that has its callback from the start. -/
def rulesRun : List Act :=
  [.spawn [.start], .spawn [.pubPublish 0 0, .createSub 0 true]] ++ distributing 1 ++ steps 1 1 ++
    [.step 1 (.run [.requestAsync 0])] ++ steps 1 3 ++ steps 2 13

example :
    heads ((exec start ([.spawn [.createProvider 0, .createConsumer 0]] ++ steps 0 22)).bind (exec · rulesRun)) =
      some [none, some (.write (.requests 0) .nothing), some (lock (subs 0))] ∧
    rulesRun.all (permitsB careful) = true := by decide +kernel

end LP.Race
