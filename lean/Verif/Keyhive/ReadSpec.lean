import Verif.Keyhive.KeptSpec

/-! # What the properties of reading content say -/

namespace Verif.Keyhive

open Verif.Group Verif.Cgka Verif.BeeKem

/-- The device has this group secret of the document at hand. -/
def HoldsSecret (k : Keyhive) (did : Id) (s : Sk) : Prop :=
  ∃ d c, AMap.get k.docs did = some d ∧ d.cgka = some c ∧ AMap.get c.pcsKeys ⟨s⟩ = some s

end Verif.Keyhive
