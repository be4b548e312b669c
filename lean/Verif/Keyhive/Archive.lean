import Verif.Keyhive.Local

/-!
# Model of archives

`into_archive`, `try_from_archive` and `ingest_archive` of `keyhive_core/src/keyhive.rs`, with the archives of groups and
documents.

Simplifications:
* An archive is a value; its serialised form is not modelled.
* The order of lists stands for the unspecified iteration order of `HashMap`s and `HashSet`s; maps that are filled again from the
  archive keep the order they had in it.
* The signer, the ciphertext store, the listener and the source of randomness given to `try_from_archive` are not modelled.
-/

namespace Verif.Keyhive

open Verif.Group Verif.Cgka Verif.BeeKem

/-- `StaticMembershipOperation` — group/membership_operation.rs:475-478. -/
inductive SMem where
  | dlg (d : SDlg)
  | rev (r : SRev)
deriving DecidableEq, Repr

/-- `GroupArchive` and `GroupStateArchive` — group.rs:942-946, group/state/archive.rs. (`id_or_indie` is in the registry.) -/
structure GroupArchive where
  id : Id
  members : AMap Id (List Nat)
  dlgHeads : List Nat
  revHeads : List Nat
deriving DecidableEq

/-- `DocumentArchive` — document/archive.rs. -/
structure DocArchive where
  group : GroupArchive
  heads : List Nat
  cgka : Option Cgka
deriving DecidableEq

/-- `Archive` — archive.rs:18-28. `reg` has the individuals, the active agent's own (in `active`) and the `IdOrIndividual` of
groups and documents; `pairs` are the prekey pairs in `active`; `unlisted` says that the active agent's individual is not among
the individuals. -/
structure Archive where
  reg : Prekey.Registry
  unlisted : Bool
  pairs : ShareKeyMap
  ops : List SMem
  groups : AMap Id GroupArchive
  docs : AMap Id DocArchive
  pending : List Event
deriving DecidableEq

/-! ## Saving -/

/-- `From<Delegation> for StaticDelegation` — delegation.rs:188-207: a delegation as it travels. -/
def Env.sdlg (E : Env) (d : Dlg) : SDlg :=
  ⟨d.issuer, d.sig, d.delegate.id, d.can, d.proof.map E.dlgDigest, d.after.map E.revDigest, d.content⟩

/-- `From<Revocation> for StaticRevocation` — revocation.rs:100-115: a revocation as it travels. -/
def Env.srev (E : Env) (r : Rev) : SRev := ⟨r.issuer, r.sig, E.dlgDigest r.revoke, r.proof.map E.dlgDigest, r.content⟩

/-- `From<MembershipOperation> for StaticMembershipOperation` — membership_operation.rs:480-493. -/
def Env.smem (E : Env) : Op → SMem
  | .dlg d => .dlg (E.sdlg d)
  | .rev r => .rev (E.srev r)

/-- `Group::into_archive` and `GroupState::into_archive` — group.rs:896-914, group/state.rs:295-301. -/
def toGroupArchive (E : Env) (g : Group) : GroupArchive :=
  { id := g.id
    members := (g.members.filter (fun p => !p.2.isEmpty)).map (fun p => (p.1, p.2.map E.dlgDigest))
    dlgHeads := AMap.keys g.dlgHeads
    revHeads := AMap.keys g.revHeads }

/-- `Document::into_archive` — document.rs:579-587. -/
def toDocArchive (E : Env) (d : Doc) : DocArchive := ⟨toGroupArchive E d.group, d.heads, d.cgka⟩

/-- `Keyhive::into_archive` — keyhive.rs:1928-1984. -/
def Keyhive.intoArchive (E : Env) (k : Keyhive) : Archive :=
  { reg := k.reg
    unlisted := k.unlisted
    pairs := k.pairs
    ops := (reverseTopsort E.opDigest (AMap.values k.dlgs) (AMap.values k.revs)).reverse.map E.smem
    groups := k.groups.map (fun p => (p.1, toGroupArchive E p.2))
    docs := k.docs.map (fun p => (p.1, toDocArchive E p.2))
    pending := k.pending }

/-! ## Loading -/

/-- `Group::dummy_from_archive` — group.rs:880-893. -/
def GroupArchive.dummy (a : GroupArchive) : Group := ⟨a.id, [], [], [], []⟩

/-- `Document::dummy_from_archive` — document.rs:589-606. -/
def DocArchive.dummy (a : DocArchive) : Doc := ⟨a.group.dummy, a.heads, a.cgka⟩

/-- The state before the operations are loaded — keyhive.rs:1995-2034. The active agent's individual is put (back) into
`individuals` (2004). -/
def Archive.dummy (a : Archive) : Keyhive :=
  { reg := a.reg
    unlisted := false
    pairs := a.pairs
    groups := a.groups.map (fun p => (p.1, p.2.dummy))
    docs := a.docs.map (fun p => (p.1, p.2.dummy))
    dlgs := []
    revs := []
    pending := a.pending }

namespace Keyhive

/-- Who an id stands for in an archive — keyhive.rs:2062-2081. Unlike in `get_agent`, individuals come before groups, and groups
before documents. -/
def archiveAgent (k : Keyhive) (id : Id) : Option Agent :=
  if id = k.reg.me then some ⟨.active, id⟩
  else if (k.individual id).isSome then some ⟨.individual, id⟩
  else if AMap.contains k.groups id then some ⟨.group, id⟩
  else if AMap.contains k.docs id then some ⟨.document, id⟩
  else none

/-- A delegation of the archive — keyhive.rs:2038-2096: as `static_delegation_to_delegation`, except for the agent. -/
def loadDlg (k : Keyhive) (s : SDlg) : Except Err Dlg :=
  match k.findProof s.proof with
  | .error e => .error e
  | .ok proof =>
    match k.findRevs s.after with
    | .error e => .error e
    | .ok revs =>
      match k.archiveAgent s.delegate with
      | none => .error .unknownAgent
      | some a => .ok (.mk s.issuer s.sig a s.can proof revs s.content)

/-- The body of the loop over the operations — keyhive.rs:2036-2128. -/
def loadOp (E : Env) (k : Keyhive) : SMem → Except Err Keyhive
  | .dlg s =>
    match k.loadDlg s with
    | .error e => .error e
    | .ok d => .ok (k.storeDlg E d)
  | .rev s =>
    match k.toRev s with
    | .error e => .error e
    | .ok r => .ok (k.storeRev E r)

/-- The loop. -/
def loadOps (E : Env) : Keyhive → List SMem → Except Err Keyhive
  | k, [] => .ok k
  | k, o :: os =>
    match k.loadOp E o with
    | .error e => .error e
    | .ok k' => loadOps E k' os

end Keyhive

/-- The delegation heads — keyhive.rs:2148-2169: root delegations that the group key did not issue are left out. -/
def reifyDlgs (E : Env) (store : CaMap Nat Dlg) (id : Id) : List Nat → Except Err (CaMap Nat Dlg)
  | [] => .ok []
  | h :: hs =>
    match AMap.get store h with
    | none => .error .missingDelegation
    | some d =>
      match reifyDlgs E store id hs with
      | .error e => .error e
      | .ok heads => .ok (if d.proof.isNone && decide (d.issuer ≠ id) then heads else (CaMap.insert E.dlgDigest heads d).1)

/-- The revocation heads — keyhive.rs:2171-2176. -/
def reifyRevs (E : Env) (store : CaMap Nat Rev) : List Nat → Except Err (CaMap Nat Rev)
  | [] => .ok []
  | h :: hs =>
    match AMap.get store h with
    | none => .error .missingRevocation
    | some r =>
      match reifyRevs E store hs with
      | .error e => .error e
      | .ok heads => .ok (CaMap.insert E.revDigest heads r).1

/-- The delegations of a member — keyhive.rs:2179-2185. -/
def reifyProofs (store : CaMap Nat Dlg) : List Nat → Except Err (List Dlg)
  | [] => .ok []
  | h :: hs =>
    match AMap.get store h with
    | none => .error .missingDelegation
    | some d =>
      match reifyProofs store hs with
      | .error e => .error e
      | .ok ds => .ok (d :: ds)

/-- The members — keyhive.rs:2178-2191. -/
def reifyMembers (store : CaMap Nat Dlg) : AMap Id (List Nat) → Except Err (AMap Id (List Dlg))
  | [] => .ok []
  | (i, hs) :: ms =>
    match reifyProofs store hs with
    | .error e => .error e
    | .ok ds =>
      match reifyMembers store ms with
      | .error e => .error e
      | .ok members => .ok (AMap.insert members i ds)

/-- `reify_ops` — keyhive.rs:2130-2194, on the dummy of the group. -/
def reifyGroup (E : Env) (k : Keyhive) (a : GroupArchive) : Except Err Group :=
  match reifyDlgs E k.dlgs a.id a.dlgHeads with
  | .error e => .error e
  | .ok dlgHeads =>
    match reifyRevs E k.revs a.revHeads with
    | .error e => .error e
    | .ok revHeads =>
      match reifyMembers k.dlgs a.members with
      | .error e => .error e
      | .ok members => .ok { a.dummy with members, dlgHeads, revHeads }

/-- The loop over the groups — keyhive.rs:2196-2217. -/
def reifyGroups (E : Env) (k : Keyhive) : AMap Id GroupArchive → Except Err (AMap Id Group)
  | [] => .ok []
  | (i, a) :: m =>
    match reifyGroup E k a with
    | .error e => .error e
    | .ok g =>
      match reifyGroups E k m with
      | .error e => .error e
      | .ok gs => .ok ((i, g) :: gs)

/-- The loop over the documents — keyhive.rs:2219-2241. -/
def reifyDocs (E : Env) (k : Keyhive) : AMap Id DocArchive → Except Err (AMap Id Doc)
  | [] => .ok []
  | (i, a) :: m =>
    match reifyGroup E k a.group with
    | .error e => .error e
    | .ok g =>
      match reifyDocs E k m with
      | .error e => .error e
      | .ok ds => .ok ((i, { a.dummy with group := g }) :: ds)

/-- `Keyhive::try_from_archive` — keyhive.rs:1986-2247. -/
def tryFromArchive (E : Env) (a : Archive) : Except Err Keyhive :=
  match a.dummy.loadOps E a.ops with
  | .error e => .error e
  | .ok k =>
    match reifyGroups E k a.groups with
    | .error e => .error e
    | .ok groups =>
      match reifyDocs E k a.docs with
      | .error e => .error e
      | .ok docs => .ok { k with groups, docs }

/-! ## Taking in an archive -/

/-- The operation as an event — keyhive.rs:2284-2291. -/
def SMem.event : SMem → Event
  | .dlg s => .dlg s
  | .rev s => .rev s

/-- The individuals of the archive. -/
def Archive.individuals (a : Archive) : AMap Id Prekey.Indie :=
  if a.unlisted then AMap.erase a.reg.indies a.reg.me else a.reg.indies

/-- An individual of the archive — keyhive.rs:2274-2281. Simplified: if the active agent's own individual has been taken out of
`individuals`, the one of the archive is put there beside the one in `active`; here it is left out. -/
def Keyhive.mergeIndie (k : Keyhive) (p : Id × Prekey.Indie) : Keyhive :=
  if p.1 = k.reg.me ∧ k.unlisted = true then k else
  match k.individual p.1 with
  | some i => { k with reg := { k.reg with indies := AMap.insert k.reg.indies p.1 (i.merge p.2) } }
  | none => { k with reg := { k.reg with indies := AMap.insert k.reg.indies p.1 p.2 } }

/-- The start of `ingest_archive` — keyhive.rs:2256-2272: the prekey pairs of the archive are added, and the individual of its
active agent is merged into that of this device. Nothing checks that they are the same agent. -/
def Keyhive.mergeActive (k : Keyhive) (a : Archive) : Keyhive :=
  { k with
    pairs := a.pairs.foldl (fun m p => AMap.insert m p.1 p.2) k.pairs
    reg := match AMap.get k.reg.indies k.reg.me, AMap.get a.reg.indies a.reg.me with
      | some mine, some other => { k.reg with indies := AMap.insert k.reg.indies k.reg.me (mine.merge other) }
      | _, _ => k.reg }

/-- `Keyhive::ingest_archive` — keyhive.rs:2249-2293. The groups, documents and pending events of the archive are not looked at. -/
def Keyhive.ingestArchive (E : Env) (ord : List Event → List Event) (k : Keyhive) (a : Archive) :
    Keyhive × Option (Except Err (List Event)) :=
  (a.individuals.foldl Keyhive.mergeIndie (k.mergeActive a)).ingest E ord (a.ops.map SMem.event)

end Verif.Keyhive
