import Verif.Cgka.Spec
import Verif.BeeKem.Spec

/-!
# Specification vocabulary: groups in which everybody runs the library (C80, C81)

Independent of the proofs.
-/

namespace Verif.Cgka

open Verif.BeeKem

/-- The call is one of the owner's own, not the delivery of somebody else's operation. -/
def Cmd.Own : Cmd → Prop
  | .receive _ => False
  | _ => True

/-- Replicas of a group all of whose replicas run the library: a replica starts from the group's first operation, is
handed to an owner whose key map is filled honestly, makes its own calls, and receives operations that another such
replica has recorded — in any order, late, more than once, or never. -/
inductive Trusted (H : SOp → Nat) : Cgka → Prop where
  | new {id : MemberId} {pk : Pk} {op : SOp} {c : Cgka} :
      First op.payload id pk → Cgka.newFromInitAdd H id pk op = .ok c → Trusted H c
  | owner {c : Cgka} (me : MemberId) (sks : ShareKeyMap) : Trusted H c → (∀ p ∈ sks, p.1 = shareKey p.2) →
      Trusted H (c.withNewOwner me sks)
  | call {c : Cgka} {cmd : Cmd} : Trusted H c → cmd.Own → cmd.Signs → Trusted H (step H c cmd)
  | receive {c d : Cgka} {x : Nat} {op : SOp} : Trusted H c → Trusted H d → AMap.get d.graph.ops x = some op →
      Trusted H (step H c (.receive op))

/-- No two known operations are concurrent. -/
def Linear (c : Cgka) : Prop := ∀ x y, Knows c x → Knows c y → x = y ∨ Before c x y ∨ Before c y x

/-- `me`, with the secret keys `sks`, is a member of `t` and has the secret key of its own leaf. -/
def HoldsLeaf (t : BeeKem) (me : MemberId) (sks : ShareKeyMap) : Prop :=
  ∃ pk sk, t.nodeKeyForId me = .ok (.share pk) ∧ AMap.get sks pk = some sk

end Verif.Cgka
