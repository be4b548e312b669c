import Verif.Keyhive.Query

/-!
# Model of adding and revoking members, with the content that the new operations name

`Keyhive::add_member` and `Keyhive::revoke_member` (`keyhive.rs:481-643`) on top of `Verif.Keyhive.Local`, which takes the content
heads as an argument. Simplification: `BTreeMap<DocumentId, Vec<T>>` is a list of pairs, whose order is not that of the ids; the
`content_state` of a document, which stays empty (document.rs:94, 221; written nowhere), is left out.
-/

namespace Verif.Keyhive

open Verif.Group Verif.Cgka Verif.BeeKem

namespace Keyhive

/-- The heads of the given documents — group.rs:452-459, document.rs:237-247, keyhive.rs:562-566. -/
def contentOf (k : Keyhive) (docs : List Id) : Content :=
  docs.filterMap (fun i => (AMap.get k.docs i).map (fun d => (i, d.heads)))

/-- What `revoke_member` names: the heads of `reachable_docs` — keyhive.rs:562-566. -/
def reachableContent (k : Keyhive) : Content := k.contentOf (AMap.keys (k.docsReachable k.reg.me))

/-- `add_member` — keyhive.rs:481-551, group.rs:443-463, document.rs:228-254. The caller names other documents. A document is locked
(keyhive.rs:538) while the heads of the others are collected (document.rs:238-240), so it must not be among them; of its own content
its (empty) `content_state` is named. -/
def addMember (E : Env) (L : Local) (k : Keyhive) (resource : Id) (who : Agent) (can : Access) (others : List Id) :
    Step (Dlg × List SOp) :=
  if AMap.contains k.groups resource then k.addMemberToGroup E L resource who can (k.contentOf others)
  else if resource ∈ others then (k, .error .hang)
  else k.addMemberToDoc E L resource who can ((resource, []) :: k.contentOf others)

/-- `revoke_member` — keyhive.rs:553-643. -/
def revokeMember (E : Env) (L : Local) (k : Keyhive) (resource member : Id) (retain : Bool) : Step (List SOp) :=
  if AMap.contains k.groups resource then k.revokeFromGroup E L resource member retain k.reachableContent
  else k.revokeFromDoc E L resource member retain k.reachableContent

end Keyhive

end Verif.Keyhive
