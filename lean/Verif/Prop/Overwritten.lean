import Verif.Prop.ActionWait
import Verif.Lemma.Overwritten
/-!
# C141: two requests with the same id
-/
namespace LP.Action

/-- A consumer registers a request under an id. From then on another callback is not called for a response with this id,
unless it is registered under it again. -/
theorem C141_overwritten (σ τ σ' : St) (h : Reachable σ) (a : Act) (as : List Act) (r : Asked) (cb : Cb) (hs : step σ a = .to τ)
    (hr : r ∈ τ.asked.drop σ.asked.length) (hne : r.cb ≠ cb) (he : exec τ as = .to σ')
    (hno : ∀ q ∈ σ'.asked.drop τ.asked.length, ¬(q.cons = r.cons ∧ q.id = r.id ∧ q.cb = cb)) (t : Tree) :
    Ev.answered r.cons r.id cb t ∉ σ'.evs.drop σ.evs.length := by
  have := (lost_exec as (h.step hs) (lost_now hs hr hne) he hno).2 t
  rwa [asked_evs hs hr] at this

/-- A blocking call that has not been answered when its consumer uses its id again is never answered: whatever happens later,
its `waiting` stays true, and if it returns, then with an empty datagram. -/
theorem C141_blocking (σ τ σ' : St) (h : Reachable σ) (a : Act) (as : List Act) (r : Asked) (n : Nat) (f : Frame)
    (hf : σ.frames[n]? = some f) (hn : ∀ t, Ev.answered f.cons f.id (.frame n) t ∉ σ.evs) (hs : step σ a = .to τ)
    (hr : r ∈ τ.asked.drop σ.asked.length) (hc : r.cons = f.cons) (hi : r.id = f.id) (he : exec τ as = .to σ') :
    ∃ f', σ'.frames[n]? = some f' ∧ f'.waiting = true ∧ f'.response = .empty ∧ (f'.pc = .done → f'.result = some .empty) := by
  have hl := (List.getElem?_eq_some_iff.1 hf).1
  have hne : r.cb ≠ .frame n := fun e => by have := asked_new hs hr e; omega
  have hm := mono_step hs
  have hm' := hm.trans (exec_mono as he)
  obtain ⟨g, hg, _⟩ := hm.frames n f hf
  obtain ⟨f', hf', e1, e2⟩ := hm'.frames n f hf
  have hlost := lost_now hs hr hne
  rw [hc, hi] at hlost
  have hafter := lost_frame as (h.step hs) hlost (List.getElem?_eq_some_iff.1 hg).1 he
  rw [asked_evs hs hr] at hafter
  have hR := (h.step hs).exec he
  obtain ⟨k1, k2⟩ := untouched hR n f' hf' (by
    rw [e1, e2]
    intro t ht
    obtain ⟨l, hl⟩ := hm'.evs
    rw [← hl] at ht
    rcases List.mem_append.1 ht with ht | ht
    · exact hn t ht
    · exact hafter t (by rw [← hl]; simpa using ht))
  refine ⟨f', hf', k2, k1, fun hd => ?_⟩
  rw [hR.calls.result n f' hf', if_pos hd, k1]

/-- So the event in which such a call returns is its timeout. -/
theorem C141_only_timeout (σ τ σ' ρ : St) (h : Reachable σ) (a b : Act) (as : List Act) (r : Asked) (n : Nat) (f f' g : Frame)
    (hf : σ.frames[n]? = some f) (hn : ∀ t, Ev.answered f.cons f.id (.frame n) t ∉ σ.evs) (hs : step σ a = .to τ)
    (hr : r ∈ τ.asked.drop σ.asked.length) (hc : r.cons = f.cons) (hi : r.id = f.id) (he : exec τ as = .to σ')
    (hf' : σ'.frames[n]? = some f') (hp : f'.pc ≠ .done) (hb : step σ' b = .to ρ) (hg : ρ.frames[n]? = some g) (hd : g.pc = .done) :
    b = .timeout n := by
  obtain ⟨k, hk, hw, _⟩ := C141_blocking σ τ σ' h a as r n f hf hn hs hr hc hi he
  rw [hf'] at hk; cases hk
  exact ends_by_timeout hf' hw hp hb hg hd

/-- Whatever ids are drawn: a response calls the callback of the request that its consumer has made last under this id, also if it
answers an earlier one. -/
theorem C141_last (σ σ' : St) (h : Reachable σ) (a : Act) (hs : step σ a = .to σ') (c : Nat) (id : Str) (cb : Cb) (t : Tree)
    (he : Ev.answered c id cb t ∈ σ'.evs.drop σ.evs.length) : lastAsked c id σ.asked = some cb := by
  obtain ⟨x, hx, hf⟩ := answered_open hs he
  exact h.newest c x id cb hx hf

/-- An asynchronous request that has drawn the id of a blocking call is sent; then two responses with this id arrive. -/
def collision : List Act :=
  [.send 0, .bus (.push 0)] ++ thread 14 ++ answering (bs "1") 8 ++ thread 25 ++ answering (bs "1") 8 ++ thread 25

theorem exec_split : ∀ (as : List Act) {bs : List Act} {σ σ' : St}, exec σ (as ++ bs) = .to σ' → ∃ τ, exec σ as = .to τ ∧ exec τ bs = .to σ'
  | [], _, σ, _, h => ⟨σ, rfl, h⟩
  | a :: as, bs, σ, σ', h => by
    obtain ⟨τ, h1, h2⟩ := exec_step h
    obtain ⟨ρ, h3, h4⟩ := exec_split as h2
    exact ⟨ρ, by simp only [exec, h1]; exact h3, h4⟩

/-- The asynchronous request gets the first response, the second is ignored; the call sleeps until its timeout and returns without
a result. -/
example : ∃ σ τ σ' ρ r f, Reachable σ ∧ σ.frames[0]? = some f ∧ (∀ t, Ev.answered f.cons f.id (.frame 0) t ∉ σ.evs) ∧
    step σ (.request 0 (bs "1") 5 (.value (.int 9))) = .to τ ∧ r ∈ τ.asked.drop σ.asked.length ∧ r.cons = f.cons ∧ r.id = f.id ∧
    r.cb = .user 5 ∧ exec τ collision = .to σ' ∧ σ'.asked.drop τ.asked.length = [] ∧ step σ' (.timeout 0) = .to ρ ∧
    plainAnswers ρ.evs = [⟨0, bs "1", .user 5, some 8⟩] ∧ plainCalls ρ.frames = [⟨.done, bs "1", some none⟩] := by
  obtain ⟨σ, ρ, h, h', e⟩ := play_obs2 (bs "r") (setup ++ calling (bs "1") 7)
    (.request 0 (bs "1") 5 (.value (.int 9)) :: (collision ++ [.timeout 0]))
    (fun σ σ' => (σ.frames.map (fun f => (f.cons, f.id)), σ.evs.length, σ.asked.length, σ'.asked.length, plainAnswers σ'.evs, plainCalls σ'.frames))
    ([(0, bs "1")], 0, 1, 2, [⟨0, bs "1", .user 5, some 8⟩], [⟨.done, bs "1", some none⟩])
    (by set_option synthInstance.maxSize 1000 in decide +kernel)
  simp only [Prod.mk.injEq] at e
  obtain ⟨e1, e2, e3, e4, e5, e6⟩ := e
  obtain ⟨τ, h1, h2⟩ := exec_step h'
  obtain ⟨σ', h2, h3⟩ := exec_split _ h2
  obtain ⟨ρ', h3, h4⟩ := exec_step h3
  cases h4
  have hle := (mono_step h3).asked.length_le
  have ha : ∃ u, τ.asked = σ.asked ++ [⟨0, bs "1", .user 5, .value (.int 9), u⟩] := by
    simp only [step] at h1
    split at h1
    · cases h1
    · cases h1; exact ⟨_, rfl⟩
  obtain ⟨u, ha⟩ := ha
  cases hf : σ.frames with
  | nil => rw [hf] at e1; cases e1
  | cons f fs =>
    rw [hf] at e1
    simp only [List.map_cons, List.cons.injEq, Prod.mk.injEq] at e1
    refine ⟨σ, τ, σ', _, ⟨0, bs "1", .user 5, .value (.int 9), u⟩, f, h, by rw [hf]; rfl, ?_, h1, by rw [ha]; simp, e1.1.1.symm,
      e1.1.2.symm, rfl, h2, ?_, h3, e5, e6⟩
    · intro t; rw [List.length_eq_zero_iff.1 e2]; simp
    · apply List.drop_eq_nil_of_le; rw [ha]; simp; omega

/-- The step in which the callback of the second of two requests with one id is called. -/
example : ∃ σ σ', Reachable σ ∧ step σ (.run .go) = .to σ' ∧ plainAnswers (σ'.evs.drop σ.evs.length) = [⟨0, bs "1", .user 5, some 8⟩] ∧
    σ.asked.map (fun a => (a.cons, a.id, a.cb)) = [(0, bs "1", .frame 0), (0, bs "1", .user 5)] := by
  obtain ⟨σ, σ', h, h', e⟩ := play_obs2 (bs "r")
    (setup ++ calling (bs "1") 7 ++ asking (bs "1") 9 ++ answering (bs "1") 8 ++ thread 24) [.run .go]
    (fun σ σ' => (plainAnswers (σ'.evs.drop σ.evs.length), σ.asked.map (fun a => (a.cons, a.id, a.cb))))
    ([⟨0, bs "1", .user 5, some 8⟩], [(0, bs "1", .frame 0), (0, bs "1", .user 5)])
    (by set_option synthInstance.maxSize 1000 in decide +kernel)
  simp only [Prod.mk.injEq] at e
  obtain ⟨τ, h1, h2⟩ := exec_step h'
  cases h2
  exact ⟨σ, _, h, h1, e.1, e.2⟩

end LP.Action
