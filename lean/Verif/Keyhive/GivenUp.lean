import Verif.Keyhive.Local

/-! # Revoking or adding a member of a group, given up half way

`Keyhive::revoke_member` on a group changes the group and releases it, and after that goes through the documents, locking one after
the other (keyhive.rs:583-634). It waits for the lock of each document, which may be in use, and can be dropped there; the process can
also end there. `Keyhive::add_member` on a group does the same (keyhive.rs:491-533). Between the operations on the group itself the lock of
the group is held; a call given up there is not modelled. -/

namespace Verif.Keyhive

open Verif.Group Verif.Cgka Verif.BeeKem

namespace Keyhive

/-- `revoke_member` on a group — keyhive.rs:555-634, given up when the group has been changed and `n` documents have been gone
through. -/
def revokeFromGroupUpTo (E : Env) (L : Local) (n : Nat) (k : Keyhive) (gid member : Id) (retain : Bool) (content : Content) :
    Step (List SOp) :=
  match AMap.get k.groups gid with
  | none => (k, .error .unknownAgent)
  | some g =>
    match idsBehind k.world [] (((AMap.get g.members member).getD []).map Dlg.delegate) [] with
    | .error e => (k, .error e)
    | .ok ids =>
      match g.revokeMember E.opDigest (membersOf k.world [gid]) L.sign member retain k.reg.me content with
      | (g', .error e) => ({ k.storeNew E g g' with groups := AMap.insert k.groups gid g' }, .error (.group e))
      | (g', .ok (revs, dlgs)) =>
        let k' := { k.storeAll E revs dlgs with groups := AMap.insert k.groups gid g' }
        if ids.isEmpty then (k', .ok []) else k'.propagateRemoves E L gid ids ((AMap.keys k'.docs).take n) []

/-- `add_member` on a group — keyhive.rs:481-536, given up when the group has been changed and `n` documents have been gone through. -/
def addMemberToGroupUpTo (E : Env) (L : Local) (n : Nat) (k : Keyhive) (gid : Id) (who : Agent) (can : Access) (content : Content) :
    Step (Dlg × List SOp) :=
  match AMap.get k.groups gid with
  | none => (k, .error .unknownAgent)
  | some g =>
    match g.addMember E.opDigest (membersOf k.world [gid]) L.sign who can k.reg.me content with
    | .error e => (k, .error (.group e))
    | .ok (g', d) =>
      let k' := { k.storeDlg E d with groups := AMap.insert k.groups gid g' }
      if can.isReader then
        match k'.propagateAdds E L gid d.delegate ((AMap.keys k'.docs).take n) [] with
        | (k'', .error e) => (k'', .error e)
        | (k'', .ok ops) => (k'', .ok (d, ops))
      else (k', .ok (d, []))

end Keyhive

end Verif.Keyhive
