import Verif.Lemma.TeamLeave
/-!
# Running examples of several threads in `Start`
-/
namespace LP.Team
open LP.Bus

/-- Execute events, if all can happen and none is undefined. -/
def run (σ : St) (es : List Ev) : Option St :=
  match exec σ es with
  | .to σ' => some σ'
  | _ => none

/-- The same from a new root bus with `n` threads. -/
def play (name : Str) (n : Nat) (es : List Ev) : Option St := (initial name n).bind (fun σ => run σ es)

theorem run_exec {σ σ' : St} {es : List Ev} (h : run σ es = some σ') : exec σ es = .to σ' := by
  unfold run at h
  split at h <;> cases h
  assumption

theorem play_reachable {name : Str} {n : Nat} {es : List Ev} {σ : St} (h : play name n es = some σ) : Reachable σ := by
  unfold play at h
  cases h0 : initial name n with
  | none => simp [h0] at h
  | some σ₀ => simp [h0] at h; exact ⟨name, n, σ₀, es, h0, run_exec h⟩

theorem play_obs {β : Type} (name : Str) (n : Nat) (es : List Ev) (f : St → β) (v : β) (h : (play name n es).map f = some v) :
    ∃ σ, Reachable σ ∧ f σ = v := by
  cases hp : play name n es with
  | none => simp [hp] at h
  | some σ => simp [hp] at h; exact ⟨σ, play_reachable hp, h⟩

theorem play_obs2 {β : Type} (name : Str) (n : Nat) (es fs : List Ev) (f : St → St → β) (v : β)
    (h : ((play name n es).bind (fun σ => (run σ fs).map (f σ))) = some v) :
    ∃ σ σ', Reachable σ ∧ exec σ fs = .to σ' ∧ f σ σ' = v := by
  cases hp : play name n es with
  | none => simp [hp] at h
  | some σ =>
    simp [hp] at h
    obtain ⟨σ', h1, h2⟩ := h
    exact ⟨σ, σ', play_reachable hp, run_exec h1, h2⟩

/-- Whether a state with `f` is passed. -/
def passes (f : St → Bool) : St → List Ev → Bool
  | σ, [] => f σ
  | σ, e :: es => f σ && match step σ e with
    | .to σ' => passes f σ' es
    | _ => true

theorem passes_throughout {f : St → Bool} {P : St → Prop} (hf : ∀ σ, f σ = true → P σ) {σ : St} {es : List Ev}
    (h : passes f σ es = true) : Throughout P σ es := by
  induction es generalizing σ with
  | nil => exact hf σ h
  | cons a as ih =>
    simp only [passes, Bool.and_eq_true] at h
    refine ⟨hf σ h.1, ?_⟩
    intro σ' hs
    rw [hs] at h
    exact ih h.2

/-- A short name for where a thread is. -/
def tag : Pos → Nat
  | .out => 0
  | .want => 1
  | .back _ => 2
  | .run .asleep => 3
  | .run .off => 4
  | .run .top => 5
  | .run .pred => 6
  | .run .drowsy => 7
  | .run .woken => 8
  | .run .drain => 9
  | .run (.loop _) => 10
  | .run (.visit _ _ false _) => 11
  | .run (.visit _ _ true _) => 12

/-- Where all threads are. -/
def tags (σ : St) : List Nat := σ.team.map tag

theorem tag_inCallback {p : Pos} (h : tag p = 12) : InCallback p ∧ Distributing p ∧ Inside p := by
  revert h
  unfold tag
  split <;> first | (intro h; exact ⟨trivial, trivial, trivial⟩) | (intro h; cases h)

theorem tag_out {p : Pos} (h : tag p = 0) : p = .out := by
  revert h
  unfold tag
  split <;> first | (intro h; rfl) | (intro h; cases h)

theorem tag_asleep {p : Pos} (h : tag p = 3) : p = .run .asleep := by
  revert h
  unfold tag
  split <;> first | (intro h; rfl) | (intro h; cases h)

theorem tags_get {σ : St} {l : List Nat} (h : tags σ = l) (i n : Nat) (hi : l[i]? = some n) :
    ∃ p, σ.team[i]? = some p ∧ tag p = n := by
  rw [← h, tags, List.getElem?_map] at hi
  cases hp : σ.team[i]? with
  | none => simp [hp] at hi
  | some p => simp [hp] at hi; exact ⟨p, rfl, hi⟩

/-- A child bus, a subscriber on each bus and a publisher on the child. -/
def setup : List Ev :=
  [.api (.createChild 0 (bs "c")), .api (.createSub 0 (bs "t") (some 1)), .api (.createSub 1 (bs "/**/*") (some 2)),
    .api (.createPub 1 (bs "t"))]
/-- One complete publication up to the notification. -/
def publication : List Ev := [.api (.pubPublish 0 (.value (.int 7))), .api (.push 0)]
/-- Thread `i` makes steps. -/
def go (i n : Nat) : List Ev := List.replicate n (.go i .go)
/-- Threads 0 and 1 enter; 0 falls asleep, 1 has found nothing to do and is about to. -/
def both : List Ev := [.start 0, .lock 0] ++ go 0 3 ++ [.start 1, .lock 1] ++ go 1 2
/-- Thread 1 falls asleep, thread 0 is woken up by the publication and distributes the message; another one is
published once 0 has fallen asleep, and thread 1 distributes it. -/
def relay : List Ev :=
  publication ++ go 1 1 ++ [.notify (some 0), .lock 0] ++ go 0 22 ++ publication ++ [.notify (some 1), .lock 1] ++ go 1 22

end LP.Team
