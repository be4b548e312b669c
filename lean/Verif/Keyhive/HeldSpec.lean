import Verif.Keyhive.KeptSpec
import Verif.Cgka.GainSpec

/-! # What a device has to start from (C07, C08, C58, C90) -/

namespace Verif.Keyhive

open Verif.Group Verif.Cgka Verif.BeeKem

/-- The secrets the call draws, or takes from an archive, are in `K`. -/
def Call.Draws (K : Sk → Prop) : Call → Prop
  | .newDoc L _ _ _ _ => ∀ n, K (L.gen n)
  | .addToGroup L _ _ _ _ => ∀ n, K (L.gen n)
  | .addToDoc L _ _ _ _ => ∀ n, K (L.gen n)
  | .revokeFromGroup L _ _ _ _ => ∀ n, K (L.gen n)
  | .revokeFromDoc L _ _ _ _ => ∀ n, K (L.gen n)
  | .encrypt L _ _ _ _ => ∀ n, K (L.gen n)
  | .pcsUpdate L _ => ∀ n, K (L.gen n)
  | .ingestArchive _ a => ∀ p ∈ a.pairs, K p.2
  | _ => True

/-- A device that starts with, takes from archives and draws only secrets in `K`. It may receive anything from the network. -/
inductive Holder (E : Env) (K : Sk → Prop) : Keyhive → Prop
  | start (reg : Prekey.Registry) (pairs : ShareKeyMap) (hk : ∀ p ∈ pairs, K p.2) : Holder E K (Keyhive.start reg pairs)
  | call {k : Keyhive} (c : Call) (h : Holder E K k) (hc : c.Honest E) (hd : c.Draws K) : Holder E K (c.run E k)

end Verif.Keyhive
