import Verif.Keyhive.Local

/-! # Registering peers that came from elsewhere -/

namespace Verif.Keyhive

open Verif.Group Verif.Cgka Verif.BeeKem

/-- `Peer` — peer.rs:24-33. The contents are behind a mutex that the caller keeps a handle to; changes made through it are not modelled. -/
inductive Peer where
  | individual (i : Id) (x : Prekey.Indie)
  | group (i : Id) (g : Group)
  | document (i : Id) (d : Doc)
deriving DecidableEq

/-- `Peer::id` — peer.rs:37-45. -/
def Peer.id : Peer → Id
  | .individual i _ => i
  | .group i _ => i
  | .document i _ => i

namespace Keyhive

/-- `get_peer` — keyhive.rs:1365-1391. -/
def getPeer (k : Keyhive) (i : Id) : Option Peer :=
  match AMap.get k.docs i with
  | some d => some (.document i d)
  | none =>
    match AMap.get k.groups i with
    | some g => some (.group i g)
    | none => (k.individual i).map (.individual i)

/-- Insertion into `individuals`. Simplified: while the device's own individual is missing there (`unlisted`), another one with its id
is left out, as `reg.indies` then holds the one of the active agent. -/
def insertIndividual (k : Keyhive) (i : Id) (x : Prekey.Indie) : Keyhive :=
  if i = k.reg.me ∧ k.unlisted = true then k else { k with reg := { k.reg with indies := AMap.insert k.reg.indies i x } }

/-- Insertion of a peer under its id — keyhive.rs:402-412. Simplified: what the group or document knows of its own prekeys (its
`IdOrIndividual`) is dropped. -/
def insertPeer (k : Keyhive) : Peer → Keyhive
  | .individual i x => k.insertIndividual i x
  | .group i g => { k with groups := AMap.insert k.groups i g, reg := { k.reg with membered := AMap.insert k.reg.membered i none } }
  | .document i d => { k with docs := AMap.insert k.docs i d, reg := { k.reg with membered := AMap.insert k.reg.membered i none } }

/-- `register_peer` — keyhive.rs:396-415. -/
def registerPeer (k : Keyhive) (p : Peer) : Keyhive × Bool :=
  if (k.getPeer p.id).isSome then (k, false) else (k.insertPeer p, true)

/-- `register_individual` — keyhive.rs:417-431. -/
def registerIndividual (k : Keyhive) (x : Prekey.Indie) : Keyhive × Bool :=
  if (k.individual x.id).isSome then (k, false) else (k.insertIndividual x.id x, true)

/-- The inner loops of `GroupState::new` — state.rs:62-71: a delegation of the lineage and the revocations it comes after. -/
def storeLink (E : Env) (k : Keyhive) (d : Dlg) : Keyhive := d.after.foldl (storeRev E) (k.storeDlg E d)

/-- The proofs of the revocations that the lineage of the delegation comes after — state.rs:67-69. -/
def oweProofs (d : Dlg) : List Dlg := d.lineage.flatMap (fun x => x.after.filterMap Rev.proof)

/-- The loop of `GroupState::new` — state.rs:53-73. The first argument bounds the rounds; the weight of the delegations is enough
(`RegisterProps.C102_rounds`). -/
def storePast (E : Env) : Nat → List Dlg → Keyhive → Keyhive
  | 0, _, k => k
  | _ + 1, [], k => k
  | n + 1, d :: ds, k =>
    if AMap.contains k.dlgs (E.dlgDigest d) then storePast E n ds k
    else storePast E n ((oweProofs d).reverse ++ ds) (d.lineage.foldl (storeLink E) (k.storeDlg E d))

/-- `register_group` — keyhive.rs:433-463: asks for the subject of the delegation, inserts under its issuer. Its signature is not
checked here. -/
def registerGroup (E : Env) (k : Keyhive) (d : Dlg) : Keyhive × Bool :=
  if AMap.contains k.groups d.subject then (k, false)
  else ((storePast E d.weight [d] k).insertGroup (Group.new E.opDigest d), true)

end Keyhive

end Verif.Keyhive
