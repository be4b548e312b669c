import Verif.Util.AMap

/-!
# Model of `keyhive_core/src/util/content_addressed_map.rs` (`CaMap`) and of
`beekem/src/content_addressed_map.rs`, which has the same operations

`hash : V → D` stands for `Digest::hash`; `Arc` is dropped.
-/

namespace Verif

/-- `CaMap<T>` — content_addressed_map.rs:16. -/
abbrev CaMap (D V : Type) := AMap D V

namespace CaMap
variable {D V : Type} [DecidableEq D] (hash : V → D)

/-- `CaMap::new` — content_addressed_map.rs:28-30. -/
def new : CaMap D V := []

/-- `CaMap::insert` — content_addressed_map.rs:33-37; the digest is returned too. -/
def insert (m : CaMap D V) (v : V) : CaMap D V × D := (AMap.insert m (hash v) v, hash v)

/-- `CaMap::insert_checked` — content_addressed_map.rs:40-44. -/
def insertChecked (m : CaMap D V) (v : V) : CaMap D V × D × Bool :=
  (AMap.insert m (hash v) v, hash v, (AMap.get m (hash v)).isNone)

/-- `CaMap::remove_by_hash` — content_addressed_map.rs:47-49. -/
def removeByHash (m : CaMap D V) (d : D) : CaMap D V × Option V := (AMap.erase m d, AMap.get m d)

/-- `CaMap::remove_by_value` — content_addressed_map.rs:51-54. -/
def removeByValue (m : CaMap D V) (v : V) : CaMap D V × Option V := removeByHash m (hash v)

/-- `CaMap::contains_value` — content_addressed_map.rs:97-100. -/
def containsValue (m : CaMap D V) (v : V) : Bool := AMap.contains m (hash v)

/-- `Merge for CaMap` — content_addressed_map.rs:121-127: existing entries win. -/
def merge (m other : CaMap D V) : CaMap D V :=
  other.foldl (fun acc p => AMap.orInsert acc p.1 p.2) m

/-- `FromIterator for CaMap` — content_addressed_map.rs:129-150 (later duplicates overwrite). -/
def fromIter (vs : List V) : CaMap D V :=
  vs.foldl (fun acc v => AMap.insert acc (hash v) v) []

end CaMap
end Verif
