import Verif.Spec.Client
import Verif.Model.LampPost
/-!
# Specification: what a configuration asks for and what the host does about it
-/
namespace LP.Host

/-- A plugin entry that names a type; a missing configuration reads as Empty. -/
def Names (e : Tree) (type : Str) (cfg : Tree) : Prop :=
  ∃ ds, e = .dict ds ∧ Dict.find (bs "type") ds = some (.value (.str type)) ∧
    (Dict.find (bs "configuration") ds = some cfg ∨ Dict.find (bs "configuration") ds = none ∧ cfg = .empty)

/-- A plugin entry whose type is not a string. -/
def Malformed (e : Tree) : Prop :=
  ∃ ds u, e = .dict ds ∧ Dict.find (bs "type") ds = some u ∧ ∀ s, u ≠ .value (.str s)

/-- An entry that is not a dictionary or has no type. -/
def Ignored (e : Tree) : Prop := ∀ ds, e = .dict ds → Dict.find (bs "type") ds = none

/-- How a call ends. -/
inductive Ending where
  | returns
  | throws (e : Exn)
  | undefined
  deriving DecidableEq

/-- The plugins as the host sees them: the plugin manager, and what was done so far, with the configuration documents. -/
abbrev View := Plugin.Manager × List (Note Tree)

/-- Instantiating one plugin: it is created, initialised and started, in this order, and nothing after a failure. -/
inductive Attempt (early : Bool) (type : Str) (cfg : Tree) : View → Ending → View → Prop where
  | unknown {m : Plugin.Manager} {n : List (Note Tree)} : m.templates.find type = none →
      Attempt early type cfg (m, n) (.throws .operationFailed) (m, n)
  | null {m m' : Plugin.Manager} {n : List (Note Tree)} : m.templates.find type ≠ none →
      Plugin.instantiateTemplate early type none m = .ok none m' →
      Attempt early type cfg (m, n) (.throws .operationFailed) (m', n)
  | fails {m m' : Plugin.Manager} {n : List (Note Tree)} {e : Exn} :
      Plugin.instantiateTemplate early type none m = .throw e m' → Attempt early type cfg (m, n) (.throws e) (m', n)
  | undefined {m : Plugin.Manager} {n : List (Note Tree)} :
      Plugin.instantiateTemplate early type none m = .ub → Attempt early type cfg (m, n) .undefined (m, n)
  | notInitialized {m m' : Plugin.Manager} {n : List (Note Tree)} {name : Str} {i : Plugin.Inst} {e : Exn} :
      Plugin.instantiateTemplate early type none m = .ok (some (name, i)) m' → i.initExn = some e →
      Attempt early type cfg (m, n) (.throws e) (m', n ++ [.initialized name cfg])
  | started {m m' : Plugin.Manager} {n : List (Note Tree)} {name : Str} {i : Plugin.Inst} :
      Plugin.instantiateTemplate early type none m = .ok (some (name, i)) m' → i.initExn = none →
      Attempt early type cfg (m, n) .returns (m', n ++ [.initialized name cfg, .started name])

/-- Working through the entries in order: an operation that failed is reported and skipped, every other exception ends
the processing. -/
inductive Runs (early : Bool) : List Tree → View → Ending → View → Prop where
  | nil {v : View} : Runs early [] v .returns v
  | ignored {e : Tree} {es : List Tree} {v v' : View} {x : Ending} : Ignored e → Runs early es v x v' →
      Runs early (e :: es) v x v'
  | malformed {e : Tree} {es : List Tree} {v : View} : Malformed e → Runs early (e :: es) v (.throws .invalidOperation) v
  | done {e : Tree} {es : List Tree} {v v1 v' : View} {x : Ending} {type : Str} {cfg : Tree} : Names e type cfg →
      Attempt early type cfg v .returns v1 → Runs early es v1 x v' → Runs early (e :: es) v x v'
  | skipped {e : Tree} {es : List Tree} {v v1 v' : View} {x : Ending} {type : Str} {cfg : Tree} : Names e type cfg →
      Attempt early type cfg v (.throws .operationFailed) v1 →
      Runs early es (v1.1, v1.2 ++ [.reported type cfg]) x v' → Runs early (e :: es) v x v'
  | thrown {e : Tree} {es : List Tree} {v v1 : View} {x : Exn} {type : Str} {cfg : Tree} : Names e type cfg →
      Attempt early type cfg v (.throws x) v1 → x ≠ .operationFailed → Runs early (e :: es) v (.throws x) v1
  | undefined {e : Tree} {es : List Tree} {v v1 : View} {type : Str} {cfg : Tree} : Names e type cfg →
      Attempt early type cfg v .undefined v1 → Runs early (e :: es) v .undefined v1

/-- The document a text stands for: what it means as JSON, or Empty if it is none. -/
def Parsed (tok : Str → Option Json) (text : Str) (t : Tree) : Prop :=
  match tok text with
  | some j => JsonMeans j t
  | none => t = .empty

/-- An unsigned count as `int`, negative ones as 0. -/
def intCount (k : Nat) : Nat := (BitVec.ofNat 32 k).toInt.toNat

/-- What processing the document of a file comes to. -/
inductive FileRuns (early : Bool) (t : Tree) : View → Ending → View → Prop where
  | noPlugins {v : View} : (∀ ds, t = .dict ds → Dict.find (bs "plugins") ds = none) → FileRuns early t v .returns v
  | scalar {v : View} {ds : List (Str × Tree)} {u : Tree} : t = .dict ds → Dict.find (bs "plugins") ds = some u →
      (u = .empty ∨ ∃ x, u = .value x) → FileRuns early t v (.throws .invalidOperation) v
  | dictionary {v : View} {ds es : List (Str × Tree)} : t = .dict ds → Dict.find (bs "plugins") ds = some (.dict es) →
      intCount es.length ≠ 0 → FileRuns early t v (.throws (.indexOutOfBounds 0)) v
  | emptyDictionary {v : View} {ds es : List (Str × Tree)} : t = .dict ds → Dict.find (bs "plugins") ds = some (.dict es) →
      intCount es.length = 0 → FileRuns early t v .returns v
  | list {v v' : View} {x : Ending} {ds : List (Str × Tree)} {es : List Tree} : t = .dict ds →
      Dict.find (bs "plugins") ds = some (.list es) → Runs early (es.take (intCount es.length)) v x v' →
      FileRuns early t v x v'

/-- A note of the model stands for a note of the specification: its variable holds the document. -/
def Stands (d : DState) : Note Nat → Note Tree → Prop
  | .initialized n x, .initialized n' t => n = n' ∧ Holds d x t
  | .started n, .started n' => n = n'
  | .reported n x, .reported n' t => n = n' ∧ Holds d x t
  | _, _ => False

/-- A host state shows a view. -/
def Shows (st : St) (v : View) : Prop :=
  st.mgr = v.1 ∧ st.notes.length = v.2.length ∧
    ∀ (i : Nat) a b, st.notes[i]? = some a → v.2[i]? = some b → Stands st.data a b

/-- A call ended in the given way with the given view. -/
def EndsWith (r : Plugin.Out St Unit) (x : Ending) (v : View) : Prop :=
  match x with
  | .returns => ∃ st', r = .ok () st' ∧ Shows st' v
  | .throws e => ∃ st', r = .throw e st' ∧ Shows st' v
  | .undefined => r = .ub

/-- A host that has come to be by reading configuration files, whatever else happens to its plugins, its root bus and
its run state. -/
inductive Reached : St → Prop where
  | new (mgr : Plugin.Manager) : Reached (create mgr)
  | read {tok : Str → Option Json} {early : Bool} {text : Str} {st st' : St} : Reached st →
      readConfigurationFile tok early text st = .ok () st' → Reached st'
  | threw {tok : Str → Option Json} {early : Bool} {text : Str} {e : Exn} {st st' : St} : Reached st →
      readConfigurationFile tok early text st = .throw e st' → Reached st'
  | other {st : St} (mgr : Plugin.Manager) (rootBus : Option Nat) (rs : RunState) : Reached st →
      Reached { st with mgr := mgr, rootBus := rootBus, runState := rs }

/-- What the notes of a configuration without malformed entries should be: every entry naming a loaded template gives
an instance named by the type and the number of earlier instances of it, initialised with the entry's configuration and
started; every entry naming another type is reported. `k` counts the instances so far. -/
inductive Expected (loaded : Str → Prop) : (Str → Nat) → List Tree → List (Note Tree) → Prop where
  | nil {k : Str → Nat} : Expected loaded k [] []
  | ignored {k : Str → Nat} {e : Tree} {es : List Tree} {ns : List (Note Tree)} : Ignored e →
      Expected loaded k es ns → Expected loaded k (e :: es) ns
  | unknown {k : Str → Nat} {e : Tree} {es : List Tree} {ns : List (Note Tree)} {type : Str} {cfg : Tree} :
      Names e type cfg → ¬ loaded type → Expected loaded k es ns →
      Expected loaded k (e :: es) (.reported type cfg :: ns)
  | known {k : Str → Nat} {e : Tree} {es : List Tree} {ns : List (Note Tree)} {type : Str} {cfg : Tree} :
      Names e type cfg → loaded type → Expected loaded (fun s => if s = type then k s + 1 else k s) es ns →
      Expected loaded k (e :: es)
        (.initialized (type ++ natToStr (k type)) cfg :: .started (type ++ natToStr (k type)) :: ns)

end LP.Host
