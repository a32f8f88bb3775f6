import Verif.Lemma.LinkAgain
import Verif.Lemma.Net
import Verif.Spec.Link
/-!
# Any history of calls of a link (C134)
-/
namespace LP.LinkLife
open LP.Bus (World BMsg)
open LP.Link (Role FromLink)

/-- The hierarchy used in the examples: a root bus with one subscriber of other code. -/
def quiet : World := { nb := 1, bus := fun _ => ⟨bs "root", [], [0], [], true, true⟩
                       ns := 1, sub := fun _ => ⟨bs "/x", some 7, 0⟩, np := 0, pub := fun _ => ⟨[], 0, false⟩, queue := [] }

theorem quiet_neat : Neat quiet 0 := ⟨by simp [quiet], by simp [quiet], by simp [quiet]⟩

/-- Everything succeeds. -/
def lucky : Luck := ⟨true, fun _ _ => true, fun _ => true⟩

/-- The addresses in the examples. -/
def ports : Bool → Str
  | true => bs "tcp://*:1"
  | false => bs "tcp://*:2"

/-- A message of some other sender. -/
def hello : BMsg := ⟨bs "a", bs "/x", .empty⟩

/-- A link with both roles. -/
def link0 : St := create (bs "n") 0 true true ports quiet

section
variable {ident : Str} {b : Nat} {server client : Bool} {addr : Bool → Str} {w : World}

/-- **C134.** A history is defined exactly if it is safe; otherwise it is undefined behaviour. It never waits for ever. -/
theorem C134_defined_iff (hw : Neat w b) (h : List Act) :
    ((∃ σ, exec (create ident b server client addr w) h = .to σ) ↔ Safe h) ∧
    (exec (create ident b server client addr w) h = .ub ↔ ¬Safe h) := by
  obtain ⟨h1, h2⟩ := exec_char (inv_create (ident := ident) (server := server) (client := client) (addr := addr) hw) h
  by_cases hs : Safe h
  · obtain ⟨τ, e, -⟩ := h1 hs
    rw [e]; simp [hs]
  · rw [h2 hs]; simp [hs]

example : Safe [.init lucky, .message hello, .deinit, .init lucky, .init lucky, .deinit] ∧ ¬Safe [.init lucky, .deinit, .deinit] ∧
    ¬Safe [.init lucky, .init lucky, .deinit, .deinit] ∧ ¬Safe [.init lucky, .destroy, .message hello] ∧ ¬Safe [.deinit] :=
  ⟨(C134_defined_iff (ident := bs "n") (server := true) (client := true) (addr := ports) quiet_neat _).1.1 ⟨_, rfl⟩,
    (C134_defined_iff (ident := bs "n") (server := true) (client := true) (addr := ports) quiet_neat _).2.1 rfl,
    (C134_defined_iff (ident := bs "n") (server := true) (client := true) (addr := ports) quiet_neat _).2.1 rfl,
    (C134_defined_iff (ident := bs "n") (server := true) (client := true) (addr := ports) quiet_neat _).2.1 rfl,
    (C134_defined_iff (ident := bs "n") (server := true) (client := true) (addr := ports) quiet_neat _).2.1 rfl⟩

/-- **C134.** Every message that is not its own leaves the link once for every `Initialize` that no `Deinitialize` made up for, on each
of its sockets; one of its own does not leave it. -/
theorem C134_copies (hw : Neat w b) {h : List Act} {σ : St} (he : exec (create ident b server client addr w) h = .to σ) (hd : ¬Dead h) (m : BMsg) :
    (FromLink ident m.sender → exec (create ident b server client addr w) (h ++ [.message m]) = .to σ) ∧
    (¬FromLink ident m.sender → exec (create ident b server client addr w) (h ++ [.message m]) =
      .to { σ with sent := σ.sent ++ (List.replicate (surplus h) (σ.outlets.map (fun i => (i, m)))).flatten }) := by
  have H0 := inv_create (ident := ident) (server := server) (client := client) (addr := addr) hw
  have H := inv_of_exec H0 he
  simp only [List.nil_append] at H
  have hi : σ.ident = ident := (conf_exec H0 he).1
  have hecho : Net.echo σ.ident m = true ↔ FromLink ident m.sender := by rw [hi]; exact Net.echo_iff _ _
  have hst : exec (create ident b server client addr w) (h ++ [.message m]) =
      .to { σ with sent := σ.sent ++ (List.replicate (surplus h) (σ.copy m)).flatten } := by
    rw [exec_snoc, he]
    simp only [R.andThen, step]
    rw [callAll_alive H.z (H.alive.2 hd), H.calls]
  constructor
  · intro hf
    rw [hst]
    simp [St.copy, hecho.2 hf]
  · intro hf
    rw [hst]
    have : Net.echo σ.ident m ≠ true := fun e => hf (hecho.1 e)
    simp only [St.copy, if_neg this]

example : ∃ σ, exec link0 [.init lucky, .init lucky] = .to σ ∧ surplus [.init lucky, .init lucky] = 2 ∧ σ.outlets = [6, 8] ∧
    ∃ τ, exec link0 [.init lucky, .init lucky, .message hello] = .to τ ∧ τ.sent.map Prod.fst = [6, 8, 6, 8] :=
  ⟨_, rfl, rfl, rfl, _, rfl, rfl⟩

example : ¬FromLink (bs "n") hello.sender ∧ FromLink (bs "n") (bs "n/a") :=
  ⟨fun ⟨s, h⟩ => by simp [hello, bs] at h, ⟨bs "a", by decide⟩⟩

/-- **C134.** After `Deinitialize`, and before the first `Initialize`, the link has no socket to send on. -/
theorem C134_silent (hw : Neat w b) {h : List Act} {σ : St} (he : exec (create ident b server client addr w) h = .to σ)
    (hl : ∀ l, lastCall h ≠ some (.init l)) : σ.outlets = [] ∧ ∀ r p, σ.ptr r p = none := by
  have H := inv_of_exec (inv_create (ident := ident) (server := server) (client := client) (addr := addr) hw) he
  have := (H.down hl).2.2
  exact ⟨by simp [St.outlets, this], this⟩

example : ∃ σ, exec link0 [.init lucky, .init lucky, .deinit, .subscribe (bs "/y") 3] = .to σ ∧ ∀ l, lastCall [.init lucky, .init lucky,
    .deinit, .subscribe (bs "/y") 3] ≠ some (.init l) := ⟨_, rfl, fun l h => by simp [lastCall, Act.isInit, Act.isDeinit] at h⟩

/-- **C134.** One context stays for ever for every `Initialize` that found one in use. -/
theorem C134_leak (hw : Neat w b) {h : List Act} {σ : St} (he : exec (create ident b server client addr w) h = .to σ) :
    σ.contexts.length = contextsLeft false h := by
  have := contexts_left (inv_create (ident := ident) (server := server) (client := client) (addr := addr) hw) he
  simpa [create] using this

example : ∃ σ, exec link0 [.init lucky, .message hello, .init lucky, .deinit] = .to σ ∧ σ.contexts = [0] ∧ σ.socks.length = 4 ∧
    contextsLeft false [.init lucky, .message hello, .init lucky, .deinit] = 1 := ⟨_, rfl, rfl, rfl, rfl⟩

/-- **C134.** A link that could be reached at an address and is initialised again without `Deinitialize` can never be reached there again,
whatever is called later. -/
theorem C134_deaf (hw : Neat w b) {p mid q : List Act} {l1 l2 : Luck} {σ τ : St} {pub : Bool} {a : Str}
    (h1 : exec (create ident b server client addr w) (p ++ [.init l1]) = .to σ) (hb : σ.bound pub a)
    (hm : ∀ x ∈ mid, x.isInit = false ∧ x.isDeinit = false)
    (h2 : exec σ (mid ++ .init l2 :: q) = .to τ) : ∀ pub', ¬τ.bound pub' a := by
  have H1 := inv_of_exec (inv_create (ident := ident) (server := server) (client := client) (addr := addr) hw) h1
  have split : ∀ (x y : List Act) (σ τ : St), exec σ (x ++ y) = .to τ → ∃ υ, exec σ x = .to υ ∧ exec υ y = .to τ := by
    intro x
    induction x with
    | nil => intro y σ τ e; exact ⟨σ, rfl, e⟩
    | cons c x ih =>
      intro y σ τ e
      obtain ⟨υ, e1, e2⟩ := exec_cons e
      obtain ⟨ρ, e3, e4⟩ := ih y υ τ e2
      exact ⟨ρ, by simp only [exec, e1, R.andThen, e3], e4⟩
  obtain ⟨σ2, e2, e3⟩ := split mid _ σ τ h2
  obtain ⟨σ3, e4, e5⟩ := exec_cons e3
  have H2 := inv_of_exec H1 e2
  have k := same_exec H1 hm e2
  obtain ⟨s, hs, hp, ha⟩ := hb
  have ho : Occ a s.id σ := ⟨H1.z.ids s hs, s, hs, rfl, ha⟩
  have hsrv : σ2.server = true := by
    cases hx : σ2.server with
    | true => rfl
    | false =>
      have := H2.z.offS hx pub
      rw [k.ptr, hp] at this; cases this
  obtain ⟨σ3', e, -, k', -⟩ := init_ok H2 (allowed_of_step H2 e4) l2
  rw [e4] at e; cases e
  have hcl : ∀ p', σ2.ptr .client p' ≠ some s.id := by
    intro p' e
    rw [k.ptr] at e
    have := (H1.z.one _ _ _ _ _ hp e).1
    cases this
  obtain ⟨o, hn⟩ := occ_wired (k.occ ho) l2 hcl (.inl hsrv)
  have st : Stuck a σ3 := ⟨s.id, k'.occ o, by rw [k'.ptr]; exact hn⟩
  have H3 := inv_of_step H2 e4
  exact fun pub' => (stuck_exec H3 st e5).unbound (inv_of_exec H3 e5).z pub'

example : ∃ σ τ, exec link0 ([] ++ [.init lucky]) = .to σ ∧ σ.bound true (ports true) ∧
    exec σ ([.message hello] ++ .init lucky :: [.deinit, .init lucky, .message hello]) = .to τ ∧ (τ.ptr .server true).isSome :=
  ⟨_, _, rfl, ⟨⟨1, 0, some (ports true)⟩, List.mem_cons_self, rfl, rfl⟩, rfl, rfl⟩

/-- **C134.** If the calls alternate, nothing is left after `Deinitialize`, and a lucky `Initialize` makes the link work as if it were
new: every enabled role has its sockets, the server can be reached at its addresses, and a message leaves each role once. -/
theorem C134_as_new (hw : Neat w b) {h : List Act} {σ : St} (he : exec (create ident b server client addr w) h = .to σ)
    (ha : Alternating false h) (hd : ¬Dead h) (hl : ∀ l, lastCall h ≠ some (.init l)) :
    σ.socks = [] ∧ σ.contexts = [] ∧
    (addr true ≠ addr false → ∀ l : Luck, l.ctx = true → (∀ r p, l.made r p = true) → (∀ p, l.free (addr p) = true) →
      ∃ τ, exec σ [.init l] = .to τ ∧ (server = true → ∀ p, τ.bound p (addr p)) ∧
        (client = true → ∀ p, ∃ s ∈ τ.socks, τ.ptr .client p = some s.id) ∧
        τ.outlets.length = server.toNat + client.toNat ∧
        ∀ m, ¬FromLink ident m.sender → ∃ υ, exec τ [.message m] = .to υ ∧ υ.sent = σ.sent ++ τ.outlets.map (fun i => (i, m))) := by
  have H0 := inv_create (ident := ident) (server := server) (client := client) (addr := addr) hw
  have H := inv_of_exec H0 he
  simp only [List.nil_append] at H
  obtain ⟨_, hc, hp⟩ := H.down hl
  obtain ⟨c1, c2, c3, c4⟩ := conf_exec H0 he
  have own := own_exec H0 ⟨by simp [create], rfl⟩ (fun _ => rfl) ha he
  have hnil : σ.socks = [] := by
    cases e : σ.socks with
    | nil => rfl
    | cons s ss => have := own.socks s (by rw [e]; exact List.mem_cons_self); rw [hc] at this; cases this
  refine ⟨hnil, by rw [own.contexts, hc]; rfl, fun hne l h1 h2 h3 => ?_⟩
  obtain ⟨τ, e, i, k, ks⟩ := init_ok H hd l
  have g2 : σ.server = server := c2
  have g3 : σ.client = client := c3
  have g4 : σ.addr = addr := c4
  obtain ⟨w1, w2, w3⟩ := wired_lucky hnil hp (by rw [g4]; exact hne) h1 h2 (by rw [g4]; exact h3)
  rw [g2, g4] at w1; rw [g3] at w2; rw [g2, g3] at w3
  have eo : τ.outlets = (wired σ l).outlets := by simp only [St.outlets]; rw [k.ptr]
  refine ⟨τ, by simp only [exec, e, R.andThen], fun hs p => ?_, fun hs p => ?_, by rw [eo]; exact w3, fun m hm => ?_⟩
  · unfold St.bound; rw [k.socks, k.ptr]; exact w1 hs p
  · rw [k.socks, k.ptr]; exact w2 hs p
  · have hecho : Net.echo τ.ident m ≠ true := by
      have : τ.ident = ident := (k.ident.trans (kept_wired σ l).ident).trans c1
      rw [this]
      exact fun x => hm ((Net.echo_iff _ _).1 x)
    have hsur : surplus (h ++ [.init l]) = 1 := by
      rw [surplus_init H.more, alternating_surplus ha hl]
    refine ⟨{ τ with sent := τ.sent ++ (List.replicate 1 (τ.copy m)).flatten }, ?_, ?_⟩
    · simp only [exec, R.andThen, step]
      rw [callAll_alive i.z (i.alive.2 (by rw [dead_snoc]; simp [hd])), i.calls, hsur]
    · simp [St.copy, hecho, ks]
example : ∃ σ, exec link0 [.init lucky, .message hello, .deinit] = .to σ ∧ Alternating false [.init lucky, .message hello, .deinit] ∧
    ¬Dead [.init lucky, .message hello, .deinit] ∧ (∀ l, lastCall [.init lucky, .message hello, .deinit] ≠ some (.init l)) ∧
    ports true ≠ ports false :=
  ⟨_, rfl, ⟨rfl, rfl, trivial⟩, by simp [Dead], fun l h => by simp [lastCall, Act.isInit, Act.isDeinit] at h, by decide⟩

end

end LP.LinkLife
