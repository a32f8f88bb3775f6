import Verif.Model.Str
/-!
# `std::map<std::string, V>`

A map is the list of its entries in iteration order. The order invariant is `Dict.Sorted`; it is a separate
predicate (not built into the type) and is proved preserved in `Verif.Lemma.Dict`.
-/
namespace LP

/-- `std::map<std::string, V>` as used for `mDictionary` (RawDatagram.h:39-44), `mChildBusses` (Bus.h),
`mInstances` (PluginTemplate.h), `mTemplates` (PluginManager.h) and `mOpenRequests` (ActionConsumer.h).
The list is the iteration order. -/
abbrev Dict (V : Type) := List (Str × V)

namespace Dict
variable {V W : Type}

/-- `std::map::find(key)` (RawDatagram.cpp:87-107, Bus.cpp:83-92): linear search for the entry. -/
def find (k : Str) : Dict V → Option V
  | [] => none
  | (k', v) :: d => if k' = k then some v else find k d

/-- `map[key] = v` (RawDatagram.cpp:92-107, Bus.cpp:62-81): overwrite the entry or insert it at its ordered
position. -/
def insert (k : Str) (v : V) : Dict V → Dict V
  | [] => [(k, v)]
  | (k', v') :: d =>
    if k = k' then (k, v) :: d
    else if Str.lt k k' then (k, v) :: (k', v') :: d
    else (k', v') :: insert k v d

/-- `map.erase(iterator)` for the entry of `key` (RawDatagram.cpp:109-123, ActionConsumer.cpp:73-81). -/
def erase (k : Str) : Dict V → Dict V
  | [] => []
  | (k', v') :: d => if k' = k then d else (k', v') :: erase k d

/-- `map.find(key) != map.end()` (RawDatagram.cpp:87-90). -/
def has (k : Str) (d : Dict V) : Bool := (find k d).isSome

/-- The keys in iteration order (RawDatagram.cpp:262-346, the loop filling `dictionary_keys`). -/
def keys (d : Dict V) : List Str := d.map Prod.fst

/-- The mapped values in iteration order (RawDatagram.cpp:262-346, the loop filling `dictionary_contents`). -/
def vals (d : Dict V) : List V := d.map Prod.snd

/-- The ordering invariant of `std::map`: keys strictly increasing in iteration order (`mDictionary`,
RawDatagram.h:40; `mChildBusses`, Bus.h:41). -/
def Sorted (d : Dict V) : Prop := d.Pairwise (fun a b => Str.lt a.1 b.1 = true)

end Dict
end LP
