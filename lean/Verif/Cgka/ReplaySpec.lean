import Verif.Cgka.TrustSpec

/-! # Specification for C15 and C86 -/

namespace Verif.Cgka

open Verif.BeeKem

/-- `x` is the digest of a removal known to `c`. -/
def Removal (c : Cgka) (x : Nat) : Prop :=
  ∃ o id i ks ps, AMap.get c.graph.ops x = some o ∧ o.payload = .remove id i ks ps

/-- Every known removal comes before or after every other known operation. Additions and updates may be concurrent with each
other in any way. -/
def NoConcurrentRemoval (c : Cgka) : Prop := ∀ x y, Removal c x → Knows c y → y = x ∨ Before c x y ∨ Before c y x

/-- The call gives back control with a result or with an error: it neither aborts the program nor loops for ever. -/
def Returns {α : Type} (r : Res α) : Prop := r ≠ .error .diverge ∧ ∀ s, r ≠ .error (.panic s)

/-- Some leaf of the tree holds several keys, because one member updated twice concurrently. -/
def LeafConflict (t : BeeKem) : Prop := ∃ id a b more, some ⟨id, .conflict a b more⟩ ∈ t.leaves

end Verif.Cgka
