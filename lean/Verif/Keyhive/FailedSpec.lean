import Verif.Keyhive.KeptSpec

/-! # What the properties about failed calls say -/

namespace Verif.Keyhive

open Verif.Group Verif.Cgka Verif.BeeKem

/-- The devices know the same individuals, the same groups and documents in the same state, and have the same delegations, revocations, waiting
events and prekey secrets, the same heads of the content of documents, and the same group-key operations on record. -/
structure AsBefore (E : Env) (k k' : Keyhive) : Prop where
  groups : ∀ i, AMap.get k'.world i = AMap.get k.world i
  heads : ∀ did, (AMap.get k'.docs did).map Doc.heads = (AMap.get k.docs did).map Doc.heads
  individuals : k'.reg = k.reg
  delegations : k'.dlgs = k.dlgs
  revocations : k'.revs = k.revs
  waiting : k'.pending = k.pending
  secrets : k'.pairs = k.pairs
  keyOps : ∀ did op, HasKeyOp E k' did op ↔ HasKeyOp E k did op

end Verif.Keyhive
