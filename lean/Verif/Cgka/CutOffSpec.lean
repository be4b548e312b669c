import Verif.Cgka.SecrecySpec

/-!
# Specification vocabulary: whose keys are out of date (C07, C08 on devices)

Independent of the proofs.
-/

namespace Verif.Cgka

open Verif.BeeKem

/-- The operation gives keys to member `id`: it adds `id`, with a prekey, or is a key update of `id`. -/
def Payload.GivesTo (id : MemberId) : Payload → Prop
  | .add i _ _ _ _ => i = id
  | .update i _ _ => i = id
  | .remove .. => False

/-- The operation replaces or withdraws the keys of member `id`: it is a key update of `id`, or removes `id`. -/
def Payload.Renews (id : MemberId) : Payload → Prop
  | .add .. => False
  | .update i _ _ => i = id
  | .remove i _ _ _ => i = id

/-- Operation `y` gave keys to a member which a later operation replaces or withdraws. -/
def Outdated (c : Cgka) (y : Nat) : Prop :=
  ∃ o id z o', AMap.get c.graph.ops y = some o ∧ o.payload.GivesTo id ∧ AMap.get c.graph.ops z = some o' ∧ o'.payload.Renews id ∧ Before c y z

/-- Node keys are random: one operation does not make the same one twice. -/
def DistinctKeys (c : Cgka) : Prop := ∀ x o, AMap.get c.graph.ops x = some o → o.payload.made.Nodup

/-- Of the operations `c` knows, only ones that give keys to `id` bring or make the secret. -/
def OnlyOf (c : Cgka) (id : MemberId) (s : Sk) : Prop :=
  ∀ y o, AMap.get c.graph.ops y = some o → s ∈ o.payload.brought ∨ s ∈ o.payload.made → o.payload.GivesTo id

end Verif.Cgka
