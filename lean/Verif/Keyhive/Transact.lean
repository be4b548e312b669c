import Verif.Keyhive.Archive
import Verif.Keyhive.Spec

/-!
# Model of transactions on a device

`ForkAsync` and `MergeAsync` for `Keyhive` (keyhive.rs:2507-2590), run by `transact_async` (transact.rs:128-149), and what the
calls made in a transaction report to the `Log` listener of the fork (listener/log.rs).

Simplifications: calls report what is listed in the comments below, in the order of the lists (the order in which the root
delegations of a new group are reported is unspecified in the code). A failing call on a group reports the operations that it put
into the stores; the one that was rejected last, which `receive_revocation` reports before it checks it, is left out there (it is
there for revocations that are received).
-/

namespace Verif.Keyhive

open Verif.Group Verif.Cgka Verif.BeeKem

/-! ## What is reported -/

/-- Delegations as reported (`on_delegation`). -/
def Env.dlgEvents (E : Env) (ds : List Dlg) : List Event := ds.map (fun d => .dlg (E.sdlg d))

/-- Revocations as reported (`on_revocation`). -/
def Env.revEvents (E : Env) (rs : List Rev) : List Event := rs.map (fun r => .rev (E.srev r))

namespace Keyhive

/-- What `receive_delegation` reports — group.rs:99, 120 (`Group::new` and `from_individual`), 418-426: the first delegation of a
new group is reported, one received by a known group or document is not. -/
def receiveDlgLog (E : Env) (k : Keyhive) (s : SDlg) : List Event :=
  if AMap.contains k.dlgs (E.hashDlg s) then []
  else if !E.validDlg s then []
  else match k.toDlg s with
    | .error _ => []
    | .ok d =>
      match AMap.get k.groups d.subject, AMap.get k.docs d.subject with
      | none, none => [.dlg s]
      | _, _ => []

/-- What `receive_revocation` reports — group.rs:434: the revocation, before it is checked. For an individual that becomes a group,
the delegation that is revoked comes first (group.rs:120). -/
def receiveRevLog (E : Env) (k : Keyhive) (s : SRev) : List Event :=
  if AMap.contains k.revs (E.hashRev s) then []
  else if !E.validRev s then []
  else match k.toRev s with
    | .error _ => []
    | .ok r =>
      match AMap.get k.groups r.subject, AMap.get k.docs r.subject with
      | none, none =>
        match k.individual r.subject with
        | some _ => [.dlg (E.sdlg r.revoke), .rev s]
        | none => []
      | _, _ => [.rev s]

/-- What `receive_cgka_op` reports — keyhive.rs:1812-1830: an operation that was new. -/
def receiveCgkaLog (E : Env) (k : Keyhive) (id : Id) (op : SOp) : List Event :=
  if !E.validCgka id op then []
  else match AMap.get k.docs id with
    | none => []
    | some d =>
      match op.payload with
      | .add added pk _ _ _ =>
        if k.reg.me = added then
          match AMap.get k.pairs pk with
          | none => []
          | some sk =>
            match (d.mergeCgkaInviteOp (E.hashCgka id) op sk).2 with
            | .ok true => [.cgka id op]
            | _ => []
        else if k.reg.pub = added then
          match (d.mergeCgkaInviteOp (E.hashCgka id) op publicSk).2 with
          | .ok true => [.cgka id op]
          | _ => []
        else
          match (d.mergeCgkaOp (E.hashCgka id) op).2 with
          | .ok true => [.cgka id op]
          | _ => []
      | _ =>
        match (d.mergeCgkaOp (E.hashCgka id) op).2 with
        | .ok true => [.cgka id op]
        | _ => []

/-- What `receive_static_event` reports. Prekey operations are not reported. -/
def receiveLog (E : Env) (k : Keyhive) : Event → List Event
  | .prekey _ => []
  | .cgka id op => k.receiveCgkaLog E id op
  | .dlg s => k.receiveDlgLog E s
  | .rev s => k.receiveRevLog E s

/-- What one pass of an ingestion reports. -/
def passLog (E : Env) : Keyhive → List Event → List Event
  | _, [] => []
  | k, e :: es =>
    match k.receive E e with
    | (k', .ok ()) => k.receiveLog E e ++ passLog E k' es
    | (k', .error err) => if err.fatal then k.receiveLog E e else k.receiveLog E e ++ passLog E k' es

/-- What the passes report. -/
def roundsLog (E : Env) : Nat → Keyhive → List Event → List Event
  | 0, _, _ => []
  | n + 1, k, epoch =>
    match pass E k epoch [] with
    | (_, .error _) => k.passLog E epoch
    | (_, .ok []) => k.passLog E epoch
    | (k', .ok (e :: es)) =>
      if (e :: es).length = epoch.length then k.passLog E epoch
      else k.passLog E epoch ++ roundsLog E n k' (e :: es)

/-- What `ingest_unsorted_static_events` reports. -/
def ingestLog (E : Env) (ord : List Event → List Event) (k : Keyhive) (events : List Event) : List Event :=
  let epoch := ord (dedup E (events ++ k.pending))
  roundsLog E (epoch.length + 1) k epoch

/-- What `generate_group` reports — group.rs:194. -/
def generateGroupLog (E : Env) (S : Op → Option Nat) (gid : Id) (k : Keyhive) (coparents : List Agent) : List Event :=
  match Group.generate E.opDigest S gid (⟨.active, k.reg.me⟩ :: coparents) [] with
  | .error _ => []
  | .ok g => E.dlgEvents (AMap.values g.dlgHeads)

/-- The group-key operations of a new document — document.rs:190-217. -/
def newDocOps (E : Env) (L : Local) (doc : Id) (others : List (Id × Pk)) : List SOp :=
  let sk := L.gen 0
  match Cgka.new (E.hashCgka doc) (L.signCgka doc) doc (shareKey sk) with
  | .error _ => []
  | .ok c =>
    match ({ group := ⟨0, [], [], [], []⟩, heads := [],
             cgka := some (withPublic (c.withNewOwner doc (AMap.insert [] (shareKey sk) sk))) } : Doc).addCgkaMembers
        (E.hashCgka doc) (L.signCgka doc) others [] with
    | (_, .error _) => []
    | (d, .ok adds) =>
      match d.cgka with
      | none => []
      | some c' =>
        match c'.update (E.hashCgka doc) (L.signCgka doc) L.gen 1 sk with
        | (_, .error _) => []
        | (_, .ok (_, op)) => c.initAddOp :: adds ++ [op]

/-- What `generate_doc` reports — group.rs:194 and document.rs:215-217. -/
def generateDocLog (E : Env) (L : Local) (S : Op → Option Nat) (did : Id) (k : Keyhive) (coparents : List Agent) (heads : List Nat) :
    List Event :=
  match Group.generate E.opDigest S did (⟨.active, k.reg.me⟩ :: coparents) [(did, heads)] with
  | .error _ => []
  | .ok g =>
    let k := (AMap.values g.dlgHeads).foldl (storeDlg E) k
    E.dlgEvents (AMap.values g.dlgHeads) ++
      match transitiveMembers k.world [] g with
      | .error _ => []
      | .ok ms =>
        match pickForGroup E L k did ms [] with
        | .error _ => []
        | .ok prekeys => (newDocOps E L did (prekeys.filter (fun p => decide (p.1 ≠ did)))).map (.cgka did)

/-- What `add_member` on a document reports — group.rs:541 and keyhive.rs:545-549: the group-key operations only if it succeeds. -/
def addToDocLog (E : Env) (L : Local) (k : Keyhive) (did : Id) (who : Agent) (can : Access) (content : Content) : List Event :=
  match AMap.get k.docs did with
  | none => []
  | some doc =>
    match doc.group.addMember E.opDigest (membersOf k.world [did]) L.sign who can k.reg.me content with
    | .error _ => []
    | .ok (_, d) =>
      E.dlgEvents [d] ++
        match (k.addMemberToDoc E L did who can content).2 with
        | .error _ => []
        | .ok (_, ops) => ops.map (.cgka did)

/-- The group-key operations made in the loop of `add_member` on a group, with their documents. -/
def addsLog (E : Env) (L : Local) (gid : Id) (who : Agent) : Keyhive → List Id → List Event
  | _, [] => []
  | k, did :: dids =>
    match k.propagateAdd E L gid who did with
    | (_, .error _) => []
    | (k', .ok ops) => ops.map (.cgka did) ++ addsLog E L gid who k' dids

/-- What `add_member` on a group reports — group.rs:541 and keyhive.rs:545-549. -/
def addToGroupLog (E : Env) (L : Local) (k : Keyhive) (gid : Id) (who : Agent) (can : Access) (content : Content) : List Event :=
  match AMap.get k.groups gid with
  | none => []
  | some g =>
    match g.addMember E.opDigest (membersOf k.world [gid]) L.sign who can k.reg.me content with
    | .error _ => []
    | .ok (g', d) =>
      let k' := { k.storeDlg E d with groups := AMap.insert k.groups gid g' }
      E.dlgEvents [d] ++
        if can.isReader then
          match (k'.propagateAdds E L gid d.delegate (AMap.keys k'.docs) []).2 with
          | .error _ => []
          | .ok _ => k'.addsLog E L gid d.delegate (AMap.keys k'.docs)
        else []

/-- What `revoke_member` on a group or document reports about membership — group.rs:434, 541, 689-691: each revocation is reported
twice. -/
def revokeLog (E : Env) (g : Group) : Group.Step (List Rev × List Dlg) → List Event
  | (g', .error _) => E.revEvents ((g.newOps g').filterMap Op.rev?) ++ E.dlgEvents ((g.newOps g').filterMap Op.dlg?)
  | (_, .ok (revs, dlgs)) => E.revEvents revs ++ E.revEvents revs ++ E.dlgEvents dlgs

/-- What `revoke_member` on a document reports — keyhive.rs:636-640. -/
def revokeFromDocLog (E : Env) (L : Local) (k : Keyhive) (did member : Id) (retain : Bool) (content : Content) : List Event :=
  match AMap.get k.docs did with
  | none => []
  | some doc =>
    match idsBehind k.world [did] (((AMap.get doc.group.members member).getD []).map Dlg.delegate) [] with
    | .error _ => []
    | .ok _ =>
      revokeLog E doc.group (doc.group.revokeMember E.opDigest (membersOf k.world [did]) L.sign member retain k.reg.me content) ++
        match (k.revokeFromDoc E L did member retain content).2 with
        | .error _ => []
        | .ok ops => ops.map (.cgka did)

/-- The group-key operations made in the loop of `revoke_member` on a group, with their documents. -/
def removesLog (E : Env) (L : Local) (gid : Id) (ids : List Id) : Keyhive → List Id → List Event
  | _, [] => []
  | k, did :: dids =>
    match k.propagateRemove E L gid ids did with
    | (_, .error _) => []
    | (k', .ok ops) => ops.map (.cgka did) ++ removesLog E L gid ids k' dids

/-- What `revoke_member` on a group reports — keyhive.rs:636-640. -/
def revokeFromGroupLog (E : Env) (L : Local) (k : Keyhive) (gid member : Id) (retain : Bool) (content : Content) : List Event :=
  match AMap.get k.groups gid with
  | none => []
  | some g =>
    match idsBehind k.world [] (((AMap.get g.members member).getD []).map Dlg.delegate) [] with
    | .error _ => []
    | .ok ids =>
      let r := g.revokeMember E.opDigest (membersOf k.world [gid]) L.sign member retain k.reg.me content
      revokeLog E g r ++
        match r with
        | (_, .error _) => []
        | (g', .ok (revs, dlgs)) =>
          let k' := { k.storeAll E revs dlgs with groups := AMap.insert k.groups gid g' }
          if ids.isEmpty then []
          else match (k'.propagateRemoves E L gid ids (AMap.keys k'.docs) []).2 with
            | .error _ => []
            | .ok _ => k'.removesLog E L gid ids (AMap.keys k'.docs)

end Keyhive

/-- What a call reports to the listener of the device. -/
def Call.log (E : Env) (k : Keyhive) : Call → List Event
  | .receive e => k.receiveLog E e
  | .ingest ord events => k.ingestLog E ord events
  -- keyhive.rs:357-365
  | .contactCard op =>
    match (k.reg.receiveContactCard E.hashKey E.validKey op).2 with
    | .error _ => []
    | .ok _ => [.prekey op]
  | .newGroup S gid coparents => Keyhive.generateGroupLog E S gid k coparents
  | .newDoc L S did coparents heads => Keyhive.generateDocLog E L S did k coparents heads
  | .addToGroup L gid who can content => k.addToGroupLog E L gid who can content
  | .addToDoc L did who can content => k.addToDocLog E L did who can content
  | .revokeFromGroup L gid member retain content => k.revokeFromGroupLog E L gid member retain content
  | .revokeFromDoc L did member retain content => k.revokeFromDocLog E L did member retain content
  | .ingestArchive ord a =>
    (a.individuals.foldl Keyhive.mergeIndie (k.mergeActive a)).ingestLog E ord (a.ops.map SMem.event)
  -- keyhive.rs:684-686
  | .encrypt L did contentRef predRefs plain =>
    match (k.encryptContent E L did contentRef predRefs plain).2 with
    | .ok (_, some op) => [.cgka did op]
    | _ => []
  | .decrypt _ _ => []
  -- keyhive.rs:741
  | .pcsUpdate L did =>
    match (k.forcePcsUpdate E L did).2 with
    | .error _ => []
    | .ok (op, _) => [.cgka did op]

/-! ## Forking and merging -/

namespace Keyhive

/-- `fork_async` — keyhive.rs:2522-2535: through the archive; panics if it cannot be loaded. -/
def fork (E : Env) (k : Keyhive) : Except Err Keyhive :=
  match tryFromArchive E (k.intoArchive E) with
  | .error _ => .error .panic
  | .ok f => .ok f

/-- The body of a transaction: calls on the fork, with what they report. -/
def runLogged (E : Env) : Keyhive → List Call → Keyhive × List Event
  | f, [] => (f, [])
  | f, c :: cs =>
    let r := runLogged E (c.run E f) cs
    (r.1, c.log E f ++ r.2)

/-- The loop over the reported events — keyhive.rs:2569-2585: prekey operations are left out, and an error is a panic. -/
def replayLog (E : Env) : Keyhive → List Event → Step Unit
  | k, [] => (k, .ok ())
  | k, .prekey _ :: es => replayLog E k es
  | k, e :: es =>
    match k.receive E e with
    | (k', .error err) => (k', .error (if err.fatal then err else .panic))
    | (k', .ok ()) => replayLog E k' es

/-- `merge_async` — keyhive.rs:2549-2587 and active.rs:384-392: the prekey pairs and individuals of the fork are merged, as when an
archive is taken in, and the events it reported are received. -/
def mergeFork (E : Env) (k fork : Keyhive) (log : List Event) : Step Unit :=
  let a := fork.intoArchive E
  (a.individuals.foldl mergeIndie (k.mergeActive a)).replayLog E log

/-- `transact_async` on a device — transact.rs:128-149. The body makes `calls` on the fork and then returns `result`; meanwhile
`others` are made on the device itself. -/
def transact (E : Env) (k : Keyhive) (calls : List Call) (result : Except Err Unit) (others : List Call) : Step Unit :=
  match k.fork E with
  | .error e => (k, .error e)
  | .ok f =>
    let k1 := others.foldl (fun k c => c.run E k) k
    match result with
    | .error e => (k1, .error e)
    | .ok () =>
      let r := runLogged E f calls
      k1.mergeFork E r.1 r.2

end Keyhive

end Verif.Keyhive
