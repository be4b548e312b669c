import Verif.Keyhive.HeadsSpec

/-! # What the properties about revoking on a device say -/

namespace Verif.Keyhive

open Verif.Group

/-- What the device takes the resource for: a group, or else a document with this membership. -/
def At (k : Keyhive) (resource : Id) (g : Group) : Prop :=
  AMap.get k.groups resource = some g ∨ (AMap.get k.groups resource = none ∧ ∃ doc, AMap.get k.docs resource = some doc ∧ doc.group = g)

end Verif.Keyhive
