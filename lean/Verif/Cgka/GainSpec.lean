import Verif.Cgka.SecrecySpec

/-!
# Specification vocabulary: what a device can know (C90)

Independent of the proofs.
-/

namespace Verif.Cgka

open Verif.BeeKem

/-- The secrets a call brings in — the new key of an update, the random values of an update or encryption — are in `K`. -/
def Cmd.Draws (K : Sk → Prop) : Cmd → Prop
  | .update _ g n newSk => K newSk ∧ ∀ m, n ≤ m → K (g m)
  | .encrypt _ g n _ _ => ∀ m, n ≤ m → K (g m)
  | _ => True

/-- Replicas of a device that starts with, is handed, and draws, only secrets in `K`. It may receive anything from the network. -/
inductive Device (H : SOp → Nat) (K : Sk → Prop) : Cgka → Prop where
  | new {id : MemberId} {pk : Pk} {op : SOp} {c : Cgka} :
      First op.payload id pk → Cgka.newFromInitAdd H id pk op = .ok c → Device H K c
  | owner {c : Cgka} (me : MemberId) (sks : ShareKeyMap) : Device H K c → (∀ p ∈ sks, K p.2 ∨ p ∈ c.ownerSks) →
      Device H K (c.withNewOwner me sks)
  | call {c : Cgka} {cmd : Cmd} : Device H K c → cmd.Honest → cmd.Draws K → Device H K (step H c cmd)

end Verif.Cgka
