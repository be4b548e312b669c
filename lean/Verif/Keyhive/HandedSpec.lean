import Verif.Keyhive.KeptSpec

/-! # What the properties about handing out say -/

namespace Verif.Keyhive

open Verif.Group Verif.Cgka Verif.BeeKem

/-- The group-key operations that the second device has recorded and the first has not are, taken over all documents, exactly `ops`
(as far as they are new); nothing recorded is lost. -/
def HandsOut (E : Env) (k k' : Keyhive) (ops : List SOp) : Prop :=
  ∃ made : Id → List SOp, (∀ did op, HasKeyOp E k' did op ↔ HasKeyOp E k did op ∨ op ∈ made did) ∧
    ∀ op, op ∈ ops ↔ ∃ did, op ∈ made did

/-- Different group-key operations have different digests. -/
def Env.NoKeyClash (E : Env) : Prop := ∀ did, Function.Injective (E.hashCgka did)

end Verif.Keyhive
