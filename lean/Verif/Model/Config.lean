import Verif.Model.Str
/-!
# Comparing configurations (PluginManagerConfiguration.h, LampPostConfiguration.h)
-/
namespace LP.Config

/-- `PluginManagerConfiguration` (PluginManagerConfiguration.h:15-16); the bus is compared by address, 0 is null. -/
structure PluginManager where
  paths : List Str
  bus : Nat

/-- `LampPostConfiguration` (LampPostConfiguration.h:15-16 of the struct, lines 57-60 with the constructors). -/
structure LampPost where
  manager : PluginManager
  files : List Str

/-- `std::equal(first1, last1, first2)` (PluginManagerConfiguration.h:33): stops at the first difference; `none` is the
undefined behaviour of dereferencing the end of the second list. -/
def stdEqual : List Str → List Str → Option Bool
  | [], _ => some true
  | _ :: _, [] => none
  | a :: l, b :: m => if a = b then stdEqual l m else some false

/-- `PluginManagerConfiguration::operator==` (PluginManagerConfiguration.h:29-34): `&&` does not look at the lists if
the buses differ. -/
def PluginManager.eq (a b : PluginManager) : Option Bool :=
  if a.bus = b.bus then stdEqual a.paths b.paths else some false

/-- `LampPostConfiguration::operator==` (LampPostConfiguration.h:26-29). -/
def LampPost.eq (a b : LampPost) : Option Bool := a.manager.eq b.manager

end LP.Config
