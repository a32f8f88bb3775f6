import Verif.Spec.LampPost
/-!
# Specification: what configuration files ask for together (C125)
-/
namespace LP.Host

/-- The plugin entries of a document: none if it has no "plugins", otherwise those of the list. -/
inductive Lists : Tree → List Tree → Prop where
  | none {t : Tree} : (∀ ds, t = .dict ds → Dict.find (bs "plugins") ds = none) → Lists t []
  | list {ds : List (Str × Tree)} {es : List Tree} : Dict.find (bs "plugins") ds = some (.list es) → Lists (.dict ds) es

/-- The plugin entries of the texts of configuration files, in order. -/
inductive Asks (tok : Str → Option Json) : List Str → List Tree → Prop where
  | nil : Asks tok [] []
  | cons {text : Str} {texts : List Str} {t : Tree} {es more : List Tree} : Parsed tok text t → Lists t es →
      Asks tok texts more → Asks tok (text :: texts) (es ++ more)

end LP.Host
