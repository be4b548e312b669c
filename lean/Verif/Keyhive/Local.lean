import Verif.Keyhive.Model
import Verif.Group.Down

/-!
# Model of the calls a device's user makes

Models creating groups and documents and adding and revoking members: `keyhive.rs:175-316, 481-643` and the functions of
`principal/document.rs` behind them.

Simplifications: the heads of document content that go into a new operation are an argument. If `revoke_member` fails half-way,
the operations it had already issued and that are below the heads of the group are put into the stores at the end. Members are
given as agents this device already knows (`register_peer` is not called).
-/

namespace Verif.Keyhive

open Verif.Group Verif.Cgka Verif.BeeKem

/-- The signer of a device and its source of choices. -/
structure Local where
  /-- Signs a membership operation (given with signature 0) with the key of the active agent. -/
  sign : Op → Option Nat
  /-- Signs a group-key operation of a document with the key of the active agent. -/
  signCgka : Id → Payload → Res SOp
  /-- The key that `pick_prekey` returns for an individual and a document (`Verif.Prekey.Indie.pickPrekey`). -/
  pick : Keyhive → Id → Id → Except Err Pk
  /-- Fresh secrets. -/
  gen : BeeKem.Gen

/-- Errors of group code seen from here. -/
def liftGroup {α : Type} : Except Group.Err α → Except Err α
  | .ok a => .ok a
  | .error e => .error (.group e)

/-- Choosing a prekey for each individual. -/
def pickEach (pick : Id → Except Err Pk) : List Id → Except Err (List (Id × Pk))
  | [] => .ok []
  | i :: is =>
    match pick i with
    | .error e => .error e
    | .ok pk =>
      match pickEach pick is with
      | .error e => .error e
      | .ok l => .ok ((i, pk) :: l)

/-- `Agent::pick_individual_prekeys` — agent.rs:122-171, the walk being that of `individual_ids`. `held`: groups and documents
locked by the caller. -/
def pickIndividualPrekeys (L : Local) (k : Keyhive) (held : List Id) (a : Agent) (doc : Id) : Except Err (List (Id × Pk)) :=
  match a.individualIds k.world held with
  | .error e => .error (.group e)
  | .ok ids => pickEach (fun i => L.pick k i doc) ids

namespace Doc

/-- `add_cgka_members_from_prekeys` — document.rs:274-291. The order of the list is that of the `HashMap`. -/
def addCgkaMembers (H : SOp → Nat) (sign : Payload → Res SOp) : Doc → List (Id × Pk) → List SOp → Doc × Except Err (List SOp)
  | d, [], acc => (d, .ok acc)
  | d, (i, pk) :: l, acc =>
    match d.cgka with
    | none => (d, .error (.cgka .notInitialized))
    | some c =>
      match c.add H sign i pk with
      | (c', .error e) => ({ d with cgka := some c' }, .error (.cgka e))
      | (c', .ok op) => addCgkaMembers H sign { d with cgka := some c' } l (acc ++ op.toList)

/-- The loop that removes individuals in `revoke_member` — document.rs:327-333. -/
def removeCgkaMembers (H : SOp → Nat) (sign : Payload → Res SOp) : Doc → List Id → List SOp → Doc × Except Err (List SOp)
  | d, [], acc => (d, .ok acc)
  | d, i :: l, acc =>
    match d.cgka with
    | none => (d, .error (.cgka .notInitialized))
    | some c =>
      match c.remove H sign i with
      | (c', .error e) => ({ d with cgka := some c' }, .error (.cgka e))
      | (c', .ok op) => removeCgkaMembers H sign { d with cgka := some c' } l (acc ++ op.toList)

/-- The loop that removes individuals when a member of a nested group is revoked — keyhive.rs:623-631, document.rs:341-348: errors are ignored. -/
def dropCgkaMembers (H : SOp → Nat) (sign : Payload → Res SOp) : Doc → List Id → List SOp → Doc × List SOp
  | d, [], acc => (d, acc)
  | d, i :: l, acc =>
    match d.cgka with
    | none => (d, acc)
    | some c =>
      match c.remove H sign i with
      | (c', .error _) => dropCgkaMembers H sign { d with cgka := some c' } l acc
      | (c', .ok op) => dropCgkaMembers H sign { d with cgka := some c' } l (acc ++ op.toList)

end Doc

/-- Union of the individuals behind several agents — document.rs:303-306, keyhive.rs:583-586. -/
def idsBehind (W : World) (held : List Id) : List Agent → List Id → Except Err (List Id)
  | [], acc => .ok acc
  | a :: as, acc =>
    match a.individualIds W held with
    | .error e => .error (.group e)
    | .ok ids => idsBehind W held as (sextend acc ids)

/-- `Group::individual_ids` — group.rs:236-243: through the first delegation of each member. -/
def groupIndividualIds (W : World) (held : List Id) (g : Group) : Except Err (List Id) :=
  idsBehind W held ((AMap.values g.members).filterMap (fun ds => ds.head?.map Dlg.delegate)) []

namespace Keyhive

/-- A device that has just been created — keyhive.rs:175-206. -/
def start (reg : Prekey.Registry) (pairs : ShareKeyMap) : Keyhive :=
  ⟨{ reg with membered := [] }, false, pairs, [], [], [], [], []⟩

/-- `generate_group` — keyhive.rs:246-267 and group.rs:132-222. `gid` is the new key and `S` signs with it. -/
def generateGroup (E : Env) (S : Op → Option Nat) (gid : Id) (k : Keyhive) (coparents : List Agent) : Step Id :=
  match Group.generate E.opDigest S gid (⟨.active, k.reg.me⟩ :: coparents) [] with
  | .error e => (k, .error (.group e))
  | .ok g => (((AMap.values g.dlgHeads).foldl (storeDlg E) k).insertGroup g, .ok g.id)

/-- `Group::pick_individual_prekeys` — group.rs:245-263. -/
def pickForGroup (E : Env) (L : Local) (k : Keyhive) (doc : Id) : List (Id × Agent × Access) → List (Id × Pk) → Except Err (List (Id × Pk))
  | [], acc => .ok acc
  | (id, a, _) :: ms, acc =>
    if id = k.reg.pub then
      pickForGroup E L k doc ms (AMap.insert acc id (shareKey publicSk))
    else
      match pickIndividualPrekeys L k [] a doc with
      | .error e => .error e
      | .ok l => pickForGroup E L k doc ms (l.foldl (fun m p => AMap.insert m p.1 p.2) acc)

/-- The key tree of a new document — document.rs:181-210: created for the document's own key, which then adds the individuals
behind the group's members and updates. -/
def newDocCgka (E : Env) (L : Local) (doc : Id) (others : List (Id × Pk)) : Except Err Cgka :=
  let sk := L.gen 0
  match Cgka.new (E.hashCgka doc) (L.signCgka doc) doc (shareKey sk) with
  | .error e => .error (.cgka e)
  | .ok c =>
    match ({ group := ⟨0, [], [], [], []⟩, heads := [],
             cgka := some (withPublic (c.withNewOwner doc (AMap.insert [] (shareKey sk) sk))) } : Doc).addCgkaMembers
        (E.hashCgka doc) (L.signCgka doc) others [] with
    | (_, .error e) => .error e
    | (d, .ok _) =>
      match d.cgka with
      | none => .error (.cgka .notInitialized)
      | some c =>
        match c.update (E.hashCgka doc) (L.signCgka doc) L.gen 1 sk with
        | (_, .error e) => .error (.cgka e)
        | (c', .ok _) => .ok c'

/-- `generate_doc` — keyhive.rs:269-316 and document.rs:156-226. `coparents` are known agents. -/
def generateDoc (E : Env) (L : Local) (S : Op → Option Nat) (did : Id) (k : Keyhive) (coparents : List Agent) (heads : List Nat) :
    Step Id :=
  match Group.generate E.opDigest S did (⟨.active, k.reg.me⟩ :: coparents) [(did, heads)] with
  | .error e => (k, .error (.group e))
  | .ok g =>
    let k := (AMap.values g.dlgHeads).foldl (storeDlg E) k
    match transitiveMembers k.world [] g with
    | .error e => (k, .error (.group e))
    | .ok ms =>
      match pickForGroup E L k did ms [] with
      | .error e => (k, .error e)
      | .ok prekeys =>
        match newDocCgka E L did (prekeys.filter (fun p => decide (p.1 ≠ did))) with
        | .error e => (k, .error e)
        | .ok c => (k.insertDoc { group := g, heads, cgka := some c }, .ok g.id)

/-- `Document::add_member` — document.rs:228-272, the document being locked. -/
def addMemberToDoc (E : Env) (L : Local) (k : Keyhive) (did : Id) (who : Agent) (can : Access) (content : Content) :
    Step (Dlg × List SOp) :=
  match AMap.get k.docs did with
  | none => (k, .error .unknownDocument)
  | some doc =>
    match doc.group.addMember E.opDigest (membersOf k.world [did]) L.sign who can k.reg.me content with
    | .error e => (k, .error (.group e))
    | .ok (g', d) =>
      let doc' := { doc with group := g' }
      let k' := (k.storeDlg E d).setDoc did doc'
      if can.isReader then
        match pickIndividualPrekeys L k' [did] d.delegate did with
        | .error e => (k', .error e)
        | .ok prekeys =>
          match doc'.addCgkaMembers (E.hashCgka did) (L.signCgka did) prekeys [] with
          | (doc'', .error e) => (k'.setDoc did doc'', .error e)
          | (doc'', .ok ops) => (k'.setDoc did doc'', .ok (d, ops))
      else (k', .ok (d, []))

/-- One document in the loop of `add_member` on a group — keyhive.rs:504-532. -/
def propagateAdd (E : Env) (L : Local) (gid : Id) (who : Agent) (k : Keyhive) (did : Id) : Step (List SOp) :=
  match AMap.get k.docs did with
  | none => (k, .ok [])
  | some doc =>
    match transitiveMembers k.world [did] doc.group with
    | .error e => (k, .error (.group e))
    | .ok tm =>
      if !AMap.contains tm gid then (k, .ok [])
      else
        match pickIndividualPrekeys L k [] who did with
        | .error e => (k, .error e)
        | .ok prekeys =>
          match doc.addCgkaMembers (E.hashCgka did) (L.signCgka did) prekeys [] with
          | (doc', .error e) => (k.setDoc did doc', .error e)
          | (doc', .ok ops) => (k.setDoc did doc', .ok ops)

/-- The loop over all documents — keyhive.rs:501-533. -/
def propagateAdds (E : Env) (L : Local) (gid : Id) (who : Agent) : Keyhive → List Id → List SOp → Step (List SOp)
  | k, [], acc => (k, .ok acc)
  | k, did :: dids, acc =>
    match k.propagateAdd E L gid who did with
    | (k', .error e) => (k', .error e)
    | (k', .ok ops) => propagateAdds E L gid who k' dids (acc ++ ops)

/-- `add_member` on a group — keyhive.rs:481-536 and group.rs:496-613. -/
def addMemberToGroup (E : Env) (L : Local) (k : Keyhive) (gid : Id) (who : Agent) (can : Access) (content : Content) :
    Step (Dlg × List SOp) :=
  match AMap.get k.groups gid with
  | none => (k, .error .unknownAgent)
  | some g =>
    match g.addMember E.opDigest (membersOf k.world [gid]) L.sign who can k.reg.me content with
    | .error e => (k, .error (.group e))
    | .ok (g', d) =>
      let k' := { k.storeDlg E d with groups := AMap.insert k.groups gid g' }
      if can.isReader then
        match k'.propagateAdds E L gid d.delegate (AMap.keys k'.docs) [] with
        | (k'', .error e) => (k'', .error e)
        | (k'', .ok ops) => (k'', .ok (d, ops))
      else (k', .ok (d, []))

/-- Operations issued by a group go into the stores. -/
def storeAll (E : Env) (k : Keyhive) (revs : List Rev) (dlgs : List Dlg) : Keyhive :=
  dlgs.foldl (storeDlg E) (revs.foldl (storeRev E) k)

/-- The operations a group had issued before it failed are in the stores — state.rs:201, 261. -/
def storeNew (E : Env) (k : Keyhive) (g g' : Group) : Keyhive :=
  k.storeAll E ((g.newOps g').filterMap Op.rev?) ((g.newOps g').filterMap Op.dlg?)

/-- `Document::revoke_member` — document.rs:293-339, the document being locked. -/
def revokeFromDoc (E : Env) (L : Local) (k : Keyhive) (did member : Id) (retain : Bool) (content : Content) : Step (List SOp) :=
  match AMap.get k.docs did with
  | none => (k, .error .unknownDocument)
  | some doc =>
    match idsBehind k.world [did] (((AMap.get doc.group.members member).getD []).map Dlg.delegate) [] with
    | .error e => (k, .error e)
    | .ok ids =>
      match doc.group.revokeMember E.opDigest (membersOf k.world [did]) L.sign member retain k.reg.me content with
      | (g', .error e) => ((k.storeNew E doc.group g').setDoc did { doc with group := g' }, .error (.group e))
      | (g', .ok (revs, dlgs)) =>
        let doc' := { doc with group := g' }
        let k' := (k.storeAll E revs dlgs).setDoc did doc'
        match groupIndividualIds k'.world [did] g' with
        | .error e => (k', .error e)
        | .ok still =>
          match doc'.removeCgkaMembers (E.hashCgka did) (L.signCgka did) (ids.filter (fun i => decide (i ∉ still))) [] with
          | (doc'', .error e) => (k'.setDoc did doc'', .error e)
          | (doc'', .ok ops) => (k'.setDoc did doc'', .ok ops)

/-- One document in the loop of `revoke_member` on a group — keyhive.rs:608-632. -/
def propagateRemove (E : Env) (L : Local) (gid : Id) (ids : List Id) (k : Keyhive) (did : Id) : Step (List SOp) :=
  match AMap.get k.docs did with
  | none => (k, .ok [])
  | some doc =>
    match transitiveMembers k.world [did] doc.group with
    | .error e => (k, .error (.group e))
    | .ok tm =>
      if !AMap.contains tm gid then (k, .ok [])
      else
        let still := ((AMap.values tm).filter (fun p => !p.1.isMembered)).map (fun p => p.1.id)
        let r := doc.dropCgkaMembers (E.hashCgka did) (L.signCgka did) (ids.filter (fun i => decide (i ∉ still))) []
        (k.setDoc did r.1, .ok r.2)

/-- The loop over all documents — keyhive.rs:604-634. -/
def propagateRemoves (E : Env) (L : Local) (gid : Id) (ids : List Id) : Keyhive → List Id → List SOp → Step (List SOp)
  | k, [], acc => (k, .ok acc)
  | k, did :: dids, acc =>
    match k.propagateRemove E L gid ids did with
    | (k', .error e) => (k', .error e)
    | (k', .ok ops) => propagateRemoves E L gid ids k' dids (acc ++ ops)

/-- `revoke_member` on a group — keyhive.rs:555-643. -/
def revokeFromGroup (E : Env) (L : Local) (k : Keyhive) (gid member : Id) (retain : Bool) (content : Content) : Step (List SOp) :=
  match AMap.get k.groups gid with
  | none => (k, .error .unknownAgent)
  | some g =>
    match idsBehind k.world [] (((AMap.get g.members member).getD []).map Dlg.delegate) [] with
    | .error e => (k, .error e)
    | .ok ids =>
      match g.revokeMember E.opDigest (membersOf k.world [gid]) L.sign member retain k.reg.me content with
      | (g', .error e) => ({ k.storeNew E g g' with groups := AMap.insert k.groups gid g' }, .error (.group e))
      | (g', .ok (revs, dlgs)) =>
        let k' := { k.storeAll E revs dlgs with groups := AMap.insert k.groups gid g' }
        if ids.isEmpty then (k', .ok []) else k'.propagateRemoves E L gid ids (AMap.keys k'.docs) []

end Keyhive

end Verif.Keyhive
