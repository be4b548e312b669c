import Verif.Keyhive.KeptSpec
import Verif.Keyhive.RefuseSpec

/-! # What the properties about receiving an event again say -/

namespace Verif.Keyhive

open Verif.Cgka Verif.BeeKem

/-- The device after further calls of any kind. -/
inductive Since (E : Env) (k : Keyhive) : Keyhive → Prop
  | refl : Since E k k
  | call {k' : Keyhive} (c : Call) (h : Since E k k') (hc : c.Honest E) : Since E k (c.run E k')

/-- The operation invites neither this device nor the public. -/
def NoInvite (k : Keyhive) (op : SOp) : Prop := ∀ id pk l ps qs, op.payload = .add id pk l ps qs → id ≠ k.reg.me ∧ id ≠ k.reg.pub

end Verif.Keyhive
