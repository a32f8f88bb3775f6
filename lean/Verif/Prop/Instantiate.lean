import Verif.Prop.Plugin
import Verif.Prop.PluginManager
/-!
# The bus of a plugin instance (C97)
-/
namespace LP.Plugin
open Bus (getChildBus createChildBus)

theorem createChildBus_ok {b c : Nat} {name : Str} {w w' : Bus.World} (h : createChildBus b name w = .ok c w') :
    (w.bus b).children.find name = none ∧ (w.bus b).attached = true ∧ c = w.nb ∧
      w' = ({ w with nb := w.nb + 1 }.setBus w.nb ⟨name, [], [], [], true, true⟩).setBus b
        { w.bus b with children := (w.bus b).children.insert name w.nb } := by
  unfold createChildBus at h
  split at h
  · cases h
  · split at h
    · cases h
    · rename_i hf
      split at h
      · cases h
      · rename_i ha
        cases h
        exact ⟨hf, by simpa using ha, rfl, rfl⟩

theorem instantiate_child {early : Bool} {p : Option Nat} {s s' : TS} {r : Str × Option Inst}
    (h : instantiate early p s = .ok r s') :
    ∃ b c, p = some b ∧ createChildBus b r.1 s.world = .ok c s'.world := by
  unfold instantiate at h
  split at h
  · cases h
  · dsimp only at h
    split at h
    · cases h
    · rename_i b
      split at h
      · cases h
      · cases h
      · cases h
      · rename_i c w hc
        refine ⟨b, c, rfl, ?_⟩
        split at h
        · cases h
        · split at h
          · cases h
          · cases h; exact hc
          · cases h; exact hc

/-- An instance is made on a bus of its own: a new child, named like the instance, of the bus its configuration names,
or of the manager's bus if it names none. That name was free there, the new bus has no children, subscribers or
publishers and is running; nothing else changes in the hierarchy. -/
theorem C97_own_bus {early : Bool} {id name : Str} {configBus : Option Nat} {m m' : Manager} {i : Inst} {p : Nat}
    (h : instantiateTemplate early id configBus m = .ok (some (name, i)) m')
    (hp : configBus = some p ∨ configBus = none ∧ m.bus = some p) (hb : p < m.world.nb) :
    getChildBus p name m.world = .throw (.keyNotFound name) m.world ∧
    ∃ c, getChildBus p name m'.world = .ok c m'.world ∧ m.world.nb ≤ c ∧ c < m'.world.nb ∧
      (m'.world.bus c).name = name ∧ (m'.world.bus c).running = true ∧ (m'.world.bus c).children = [] ∧
      (m'.world.bus c).subs = [] ∧ (m'.world.bus c).pubs = [] ∧
      (∀ b' name', b' < m.world.nb → (b', name') ≠ (p, name) →
        (m'.world.bus b').children.find name' = (m.world.bus b').children.find name') ∧
      (∀ b', b' < m.world.nb → (m'.world.bus b').subs = (m.world.bus b').subs ∧
        (m'.world.bus b').pubs = (m.world.bus b').pubs) := by
  unfold instantiateTemplate at h
  simp only at h
  split at h
  · cases h
  · rename_i x t ht
    split at h
    · rename_i n i' s' hi
      obtain ⟨b, c, e1, hc⟩ := instantiate_child hi
      have hb' : b = p := by
        rcases hp with rfl | ⟨rfl, hm⟩
        · cases e1; rfl
        · rw [hm] at e1; cases e1; rfl
      subst hb'
      simp only [Out.ok.injEq, Option.map_eq_some_iff, Prod.mk.injEq] at h
      obtain ⟨⟨_, _, rfl, rfl⟩, rfl⟩ := h
      obtain ⟨h1, h2, h3, h4⟩ := createChildBus_ok hc
      have hne : b ≠ m.world.nb := by omega
      simp only at h1 h2 h3 h4
      refine ⟨by simp [getChildBus, h1], c, ?_, by omega, ?_, ?_, ?_, ?_, ?_, ?_, ?_, ?_⟩
      · simp [getChildBus, h4, Bus.World.setBus, h3]
      · simp [h4, Bus.World.setBus, h3]
      · simp [h4, Bus.World.setBus, h3, Ne.symm hne]
      · simp [h4, Bus.World.setBus, h3, Ne.symm hne]
      · simp [h4, Bus.World.setBus, h3, Ne.symm hne]
      · simp [h4, Bus.World.setBus, h3, Ne.symm hne]
      · simp [h4, Bus.World.setBus, h3, Ne.symm hne]
      · intro b' name' hb' hn'
        have : b' ≠ m.world.nb := by omega
        by_cases e : b' = b
        · subst e
          have hnn : n ≠ name' := fun e => hn' (by rw [e])
          simp [h4, Bus.World.setBus, Dict.find_insert_ne hnn]
        · simp [h4, Bus.World.setBus, e, this]
      · intro b' hb'
        have : b' ≠ m.world.nb := by omega
        by_cases e : b' = b
        · subst e
          simp [h4, Bus.World.setBus]
        · simp [h4, Bus.World.setBus, e, this]
    · cases h
    · cases h
    · cases h

/-- An identifier without template gives a null pointer and changes nothing. -/
theorem C97_unknown_identifier (early : Bool) (id : Str) (configBus : Option Nat) (m : Manager)
    (h : m.templates.find id = none) : instantiateTemplate early id configBus m = .ok none m := by
  simp [instantiateTemplate, h]

/-- If neither the configuration nor the manager has a bus, a null pointer is dereferenced. -/
theorem C97_no_bus (early : Bool) (id : Str) (m : Manager) (x : Nat × Template) (h : m.templates.find id = some x)
    (hb : m.bus = none) : instantiateTemplate early id none m = .ub := by
  have : ∀ s : TS, instantiate early none s = .ub := by
    intro s
    unfold instantiate
    split <;> rfl
  obtain ⟨h', t⟩ := x
  simp only [instantiateTemplate, h, hb, this]

/-- Two buses, one template. -/
def twoBuses : Manager :=
  ⟨[], some 0, [(bs "A", (1, ⟨bs "A", some goodMaker, []⟩))],
    match createChildBus 0 (bs "sub") freshWorld with | .ok _ w => w | _ => freshWorld, []⟩

/-- The name of the instance a call returned, and the child buses afterwards. -/
def childrenSeen : Out Manager (Option (Str × Inst)) → List Str × List (List (Str × Nat))
  | .ok (some (n, _)) m => ([n], (List.range m.world.nb).map (fun b => (m.world.bus b).children))
  | _ => ([], [])

example : childrenSeen (instantiateTemplate false (bs "A") none twoBuses) =
    ([bs "A0"], [[(bs "A0", 2), (bs "sub", 1)], [], []]) := by decide +kernel

example : childrenSeen (instantiateTemplate false (bs "A") (some 1) twoBuses) =
    ([bs "A0"], [[(bs "sub", 1)], [(bs "A0", 2)], []]) := by decide +kernel

example : (twoBuses.templates.find (bs "B")).isNone = true ∧ (twoBuses.templates.find (bs "A")).isSome = true ∧
    { twoBuses with bus := none }.bus.isNone = true := by decide +kernel

end LP.Plugin
