import Verif.Keyhive.Content

/-! # Asking for the hash of the group key -/

namespace Verif.Keyhive

open Verif.Group Verif.Cgka Verif.BeeKem

/-- `try_pcs_key_hash` of a document's key tree — keyhive_core/src/cgka.rs:119-122, called in keyhive.rs:690-695, where every error becomes `None`
(here: every error with which the call returns). The secrets found on the way are kept. Operations that wait to be worked into the tree are not
looked at. (In the code some of those secrets are also kept when the call fails; not modelled, as in `decryptTreeSecret`.) -/
def Doc.tryPcsKeyHash (d : Doc) : Doc × Res (Option PcsHash) :=
  match d.cgka with
  | none => (d, .ok none)
  | some c =>
    match c.pcsKeyFromTreeRoot with
    | .error e => (d, if Cgka.fatal e then .error e else .ok none)
    | .ok (c', key) => ({ d with cgka := some c' }, .ok (some ⟨key⟩))

/-- `Keyhive::try_pcs_key_hash` — keyhive.rs:690-695. The caller has the document at hand: for an unknown id nothing happens. -/
def Keyhive.tryPcsKeyHash (k : Keyhive) (did : Id) : Keyhive × Res (Option PcsHash) :=
  match AMap.get k.docs did with
  | none => (k, .ok none)
  | some d => (k.setDoc did d.tryPcsKeyHash.1, d.tryPcsKeyHash.2)

end Verif.Keyhive
