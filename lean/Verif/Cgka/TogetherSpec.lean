import Verif.Cgka.SecrecySpec

/-!
# Specification vocabulary: groups in which members update their keys at the same time (C80)

Independent of the proofs.
-/

namespace Verif.Cgka

open Verif.BeeKem

/-- `x` is a known operation that adds or removes a member. -/
def Change (c : Cgka) (x : Nat) : Prop :=
  ∃ o, AMap.get c.graph.ops x = some o ∧ ∀ id pc ps, o.payload ≠ .update id pc ps

/-- Nobody did anything at the same time as a member was added or removed. -/
def ChangesApart (c : Cgka) : Prop := ∀ x y, Change c x → Knows c y → y = x ∨ Before c x y ∨ Before c y x

/-- No member updated their key twice at the same time, from two devices say. Different members may. -/
def UpdatesInTurn (c : Cgka) : Prop :=
  ∀ x y ox oy id pc ps pc' ps', AMap.get c.graph.ops x = some ox → AMap.get c.graph.ops y = some oy →
    ox.payload = .update id pc ps → oy.payload = .update id pc' ps' → x = y ∨ Before c x y ∨ Before c y x

end Verif.Cgka
