import Verif.Group.Model
import Verif.Prekey.Model
import Verif.Cgka.Model

/-!
# Model of a device receiving events

Models the parts of `keyhive_core/src/keyhive.rs` that take in events made elsewhere (`receive_*`, `promote_individual_to_group`,
`ingest_unsorted_static_events`) and the functions of `keyhive_core/src/principal/document.rs` they call.

Groups, prekeys and key trees are those of `Verif.Group`, `Verif.Prekey` and `Verif.Cgka`.

Simplifications:
* `Arc<Mutex<_>>` handles are ids. A call that locks a mutex it already holds never returns: the error `hang`.
  `futures::lock::Mutex` is not re-entrant, and in edition 2021 (Cargo.toml:18) a guard made in the condition of an `if let`
  is held in its `else` branches too.
* `GroupState::new` also inserts everything below the head into the stores (state.rs:56-75). A head made from a received
  event was put together from those stores (keyhive.rs:1457-1533), so only the head itself is new.
* Listener calls are dropped.
-/

namespace Verif.Keyhive

open Verif.Group Verif.Cgka Verif.BeeKem

/-! ## Events as they travel -/

/-- `Signed<StaticDelegation>` — delegation.rs:153-162: other operations are named by digest, the delegate by id. -/
structure SDlg where
  issuer : Id
  sig : Nat
  delegate : Id
  can : Access
  proof : Option Nat
  after : List Nat
  content : Content
deriving DecidableEq, Repr

/-- `Signed<StaticRevocation>` — revocation.rs:87-98. -/
structure SRev where
  issuer : Id
  sig : Nat
  revoke : Nat
  proof : Option Nat
  content : Content
deriving DecidableEq, Repr

/-- `StaticEvent` — event/static_event.rs:18-33. The document id is a field of the group-key operation in Rust. -/
inductive Event where
  | prekey (op : Prekey.KeyOp)
  | cgka (doc : Id) (op : SOp)
  | dlg (d : SDlg)
  | rev (r : SRev)
deriving DecidableEq, Repr

/-- What the model takes as given: digests (`Digest::hash`, digest.rs:47-54) and signature checks (`Signed::try_verify`,
keyhive_crypto/src/signed.rs). -/
structure Env where
  hashKey : Prekey.KeyOp → Nat
  hashCgka : Id → SOp → Nat
  hashDlg : SDlg → Nat
  hashRev : SRev → Nat
  hashEvent : Event → Nat
  validKey : Prekey.KeyOp → Bool
  validCgka : Id → SOp → Bool
  validDlg : SDlg → Bool
  validRev : SRev → Bool

namespace Env

mutual
/-- `Digest::hash` of a `Signed<Delegation>`, which is serialised as its static form — delegation.rs:145-151 and
`From<Delegation> for StaticDelegation` (delegation.rs:188-207). -/
def dlgDigest (E : Env) : Dlg → Nat
  | .root i s a c rs x => E.hashDlg ⟨i, s, a.id, c, none, E.revDigests rs, x⟩
  | .link i s a c p rs x => E.hashDlg ⟨i, s, a.id, c, some (E.dlgDigest p), E.revDigests rs, x⟩
/-- `Digest::hash` of a `Signed<Revocation>` — revocation.rs:79-85, 100-115. -/
def revDigest (E : Env) : Rev → Nat
  | .root i s d x => E.hashRev ⟨i, s, E.dlgDigest d, none, x⟩
  | .via i s d p x => E.hashRev ⟨i, s, E.dlgDigest d, some (E.dlgDigest p), x⟩
/-- The digests of `after_revocations`. -/
def revDigests (E : Env) : Revs → List Nat
  | .nil => []
  | .cons r rs => E.revDigest r :: E.revDigests rs
end

/-- Digest of a membership operation. -/
def opDigest (E : Env) : Op → Nat
  | .dlg d => E.dlgDigest d
  | .rev r => E.revDigest r

end Env

/-! ## The state of a device -/

/-- `Document` — document.rs:65-78 (without `content_state` and `known_decryption_keys`). -/
structure Doc where
  group : Group
  heads : List Nat
  cgka : Option Cgka
deriving DecidableEq

/-- `Keyhive` — keyhive.rs:88-133. `reg` has the individuals (with the active agent's own) and the `IdOrIndividual` of groups
and documents; `unlisted` is set once the active agent's individual has been taken out of `individuals`. -/
structure Keyhive where
  reg : Prekey.Registry
  unlisted : Bool
  pairs : ShareKeyMap
  groups : AMap Id Group
  docs : AMap Id Doc
  dlgs : CaMap Nat Dlg
  revs : CaMap Nat Rev
  pending : List Event
deriving DecidableEq

/-- `ReceiveStaticEventError` and what it contains — keyhive.rs:2604-2790; `panic` and `hang` for calls that do not return. -/
inductive Err where
  | prekey (e : Prekey.Err)
  | cgka (e : CgkaError)
  | group (e : Group.Err)
  | verification
  | unknownDocument
  | unknownInvitePrekey
  | missingDelegation
  | missingRevocation
  | unknownAgent
  | panic
  | hang
deriving DecidableEq, Repr

/-- The call did not return. -/
def Err.fatal : Err → Bool
  | .panic => true
  | .hang => true
  | .cgka e => Cgka.fatal e
  | .group e => decide (e = .deadlock)
  | _ => false

/-- `matches!(e, ReceiveStaticEventError::ReceivePrekeyOpError(_))` — keyhive.rs:2327. -/
def Err.isPrekey : Err → Bool
  | .prekey _ => true
  | _ => false

/-- Outcome of a call that may change the state before it fails. -/
abbrev Step (α : Type) := Keyhive × Except Err α

namespace Keyhive

/-- All groups, including those of documents. -/
def world (k : Keyhive) : World := k.groups ++ k.docs.map (fun p => (p.1, p.2.group))

/-- `self.individuals.get` — the active agent's individual may have been removed from the map. -/
def individual (k : Keyhive) (id : Id) : Option Prekey.Indie :=
  if id = k.reg.me ∧ k.unlisted = true then none else AMap.get k.reg.indies id

/-- `get_agent` — keyhive.rs:1393-1429. -/
def getAgent (k : Keyhive) (id : Id) : Option Agent :=
  if id = k.reg.me then some ⟨.active, id⟩
  else if AMap.contains k.docs id then some ⟨.document, id⟩
  else if AMap.contains k.groups id then some ⟨.group, id⟩
  else if (k.individual id).isSome then some ⟨.individual, id⟩
  else none

/-- The proof named by an event — keyhive.rs:1461-1474. -/
def findProof (k : Keyhive) : Option Nat → Except Err (Option Dlg)
  | none => .ok none
  | some h =>
    match AMap.get k.dlgs h with
    | none => .error .missingDelegation
    | some d => .ok (some d)

/-- The revocations named by an event — keyhive.rs:1482-1492. -/
def findRevs (k : Keyhive) : List Nat → Except Err (List Rev)
  | [] => .ok []
  | h :: hs =>
    match AMap.get k.revs h with
    | none => .error .missingRevocation
    | some r =>
      match k.findRevs hs with
      | .error e => .error e
      | .ok rs => .ok (r :: rs)

/-- `static_delegation_to_delegation` — keyhive.rs:1456-1501. -/
def toDlg (k : Keyhive) (s : SDlg) : Except Err Dlg :=
  match k.findProof s.proof with
  | .error e => .error e
  | .ok proof =>
    match k.getAgent s.delegate with
    | none => .error .unknownAgent
    | some a =>
      match k.findRevs s.after with
      | .error e => .error e
      | .ok revs => .ok (.mk s.issuer s.sig a s.can proof revs s.content)

/-- `static_revocation_to_revocation` — keyhive.rs:1503-1534. -/
def toRev (k : Keyhive) (s : SRev) : Except Err Rev :=
  match AMap.get k.dlgs s.revoke with
  | none => .error .missingDelegation
  | some d =>
    match k.findProof s.proof with
    | .error e => .error e
    | .ok proof => .ok (.mk s.issuer s.sig d proof s.content)

/-- `self.delegations.insert`. -/
def storeDlg (E : Env) (k : Keyhive) (d : Dlg) : Keyhive := { k with dlgs := (CaMap.insert E.dlgDigest k.dlgs d).1 }

/-- `self.revocations.insert`. -/
def storeRev (E : Env) (k : Keyhive) (r : Rev) : Keyhive := { k with revs := (CaMap.insert E.revDigest k.revs r).1 }

/-- `self.groups.insert` of a new group. -/
def insertGroup (k : Keyhive) (g : Group) : Keyhive :=
  { k with groups := AMap.insert k.groups g.id g, reg := { k.reg with membered := AMap.insert k.reg.membered g.id none } }

/-- `self.docs.insert` of a new document. -/
def insertDoc (k : Keyhive) (d : Doc) : Keyhive :=
  { k with docs := AMap.insert k.docs d.group.id d,
           reg := { k.reg with membered := AMap.insert k.reg.membered d.group.id none } }

/-- `self.individuals.remove`. -/
def removeIndividual (k : Keyhive) (id : Id) : Keyhive :=
  if id = k.reg.me then { k with unlisted := true }
  else { k with reg := { k.reg with indies := AMap.erase k.reg.indies id } }

/-- `promote_individual_to_group` — keyhive.rs:1834-1902, for an individual that was just removed from `individuals`. The new
group is returned; it is *not* put into `groups`. Delegations to the agent are re-inserted unchanged (1850-1868, without effect).
If a revocation in that group is known, the loop at 1870-1899 never gets past it: without a proof it panics (1890), with a proof
it locks `self.delegations` while holding that lock since 1881. -/
def promote (E : Env) (k : Keyhive) (head : Dlg) : Step Group :=
  let k := k.storeDlg E head
  match (AMap.values k.revs).find? (fun r => decide (r.subject = head.issuer)) with
  | none => (k, .ok (Group.new E.opDigest head))
  | some r => (k, .error (if r.proof.isNone then .panic else .hang))

/-- The new group for a delegation about an unknown subject — keyhive.rs:1648-1672: none of the checks that a known group makes
is made. It becomes a document if the delegation names content of the subject. -/
def adopt (E : Env) (k : Keyhive) (d : Dlg) : Keyhive :=
  let g := Group.new E.opDigest d
  let k := k.storeDlg E d
  match (d.content.find? (fun p => decide (p.1 = d.subject))).map (·.2) with
  | some (h :: hs) => k.insertDoc { group := g.rebuild E.opDigest, heads := h :: hs, cgka := none }
  | _ => k.insertGroup g

/-- `receive_delegation` once the delegation has been put together — keyhive.rs:1618-1672. -/
def applyDlg (E : Env) (k : Keyhive) (d : Dlg) : Step Unit :=
  match AMap.get k.groups d.subject with
  | some g =>
    match g.receiveDelegation E.opDigest (membersOf k.world [d.subject]) d with
    | .error e => (k, .error (.group e))
    | .ok g' => ({ k.storeDlg E d with groups := AMap.insert k.groups d.subject g' }, .ok ())
  | none =>
    match AMap.get k.docs d.subject with
    | some doc =>
      match doc.group.receiveDelegation E.opDigest (membersOf k.world [d.subject]) d with
      | .error e => (k, .error (.group e))
      | .ok g' => ({ k.storeDlg E d with docs := AMap.insert k.docs d.subject { doc with group := g' } }, .ok ())
    | none =>
      match k.individual d.subject with
      | some _ =>
        match (k.removeIndividual d.subject).promote E d with
        | (k', .error e) => (k', .error e)
        | (k', .ok _) => (k', .ok ())
      | none => (k.adopt E d, .ok ())

/-- `receive_delegation` — keyhive.rs:1588-1679. -/
def receiveDelegation (E : Env) (k : Keyhive) (s : SDlg) : Step Unit :=
  if AMap.contains k.dlgs (E.hashDlg s) then (k, .ok ())
  else if !E.validDlg s then (k, .error .verification)
  else match k.toDlg s with
    | .error e => (k, .error e)
    | .ok d => k.applyDlg E d

/-- `receive_revocation` once the revocation has been put together — keyhive.rs:1700-1742. For an unknown subject the last branch
locks `self.groups` (1739) while the guard from the first condition (1704) is held. -/
def applyRev (E : Env) (k : Keyhive) (r : Rev) : Step Unit :=
  match AMap.get k.groups r.subject with
  | some g =>
    match g.receiveRevocation E.opDigest (membersOf k.world [r.subject]) r with
    | .error e => (k, .error (.group e))
    | .ok g' => ({ k.storeRev E r with groups := AMap.insert k.groups r.subject g' }, .ok ())
  | none =>
    match AMap.get k.docs r.subject with
    | some doc =>
      match doc.group.receiveRevocation E.opDigest (membersOf k.world [r.subject]) r with
      | .error e => (k, .error (.group e))
      | .ok g' => ({ k.storeRev E r with docs := AMap.insert k.docs r.subject { doc with group := g' } }, .ok ())
    | none =>
      match k.individual r.subject with
      | some _ =>
        match (k.removeIndividual r.subject).promote E r.revoke with
        | (k', .error e) => (k', .error e)
        | (k', .ok g) =>
          match g.receiveRevocation E.opDigest (membersOf k'.world [g.id]) r with
          | .error e => (k', .error (.group e))
          | .ok _ => (k'.storeRev E r, .ok ())
      | none => (k, .error .hang)

/-- `receive_revocation` — keyhive.rs:1681-1745. -/
def receiveRevocation (E : Env) (k : Keyhive) (s : SRev) : Step Unit :=
  if AMap.contains k.revs (E.hashRev s) then (k, .ok ())
  else if !E.validRev s then (k, .error .verification)
  else match k.toRev s with
    | .error e => (k, .error e)
    | .ok r => k.applyRev E r

end Keyhive

/-! ## Group-key operations -/

/-- The well-known secret of the public individual: `Public::share_secret_key` — public.rs:56-58, all zeros. -/
def publicSk : Sk := 0

/-- `Cgka::insert_public_sks` — keyhive_core/src/cgka.rs:60-64, which `new`, `new_from_init_add` and `with_new_owner` of that file call
on what the functions of the same name in beekem return (lines 66-109). -/
def withPublic (c : Cgka) : Cgka := { c with ownerSks := AMap.insert c.ownerSks (shareKey publicSk) publicSk }

namespace Doc

/-- `merge_cgka_op` — document.rs:377-402. -/
def mergeCgkaOp (H : SOp → Nat) (d : Doc) (op : SOp) : Doc × Res Bool :=
  match d.cgka with
  | some c => let r := c.mergeConcurrentOperation H op; ({ d with cgka := some r.1 }, r.2)
  | none =>
    match op.payload with
    | .add id pk _ preds _ =>
      if !preds.isEmpty then (d, .error .outOfOrderOperation)
      else
        match Cgka.newFromInitAdd H id pk op with
        | .error e => (d, .error e)
        | .ok c => ({ d with cgka := some (withPublic c) }, .ok true)
    | _ => (d, .error .unexpectedInitialOperation)

/-- `merge_cgka_invite_op` — document.rs:404-432. -/
def mergeCgkaInviteOp (H : SOp → Nat) (d : Doc) (op : SOp) (sk : Sk) : Doc × Res Bool :=
  match op.payload with
  | .add id pk _ _ _ =>
    match d.cgka with
    | none => (d, .error .notInitialized)
    | some c =>
      if !c.graph.containsPredecessors op.payload.preds then (d, .error .outOfOrderOperation)
      else { d with cgka := some (withPublic (c.withNewOwner id (AMap.insert c.ownerSks pk sk))) }.mergeCgkaOp H op
  | _ => (d, .error .unexpectedInviteOperation)

/-- `reset_cgka_owner` — document.rs:434-439. -/
def resetCgkaOwner (d : Doc) (owner : Id) : Doc × Res Unit :=
  match d.cgka with
  | none => (d, .error .notInitialized)
  | some c => ({ d with cgka := some (withPublic (c.withNewOwner owner c.ownerSks)) }, .ok ())

end Doc

namespace Keyhive

/-- Changing the contents of a document in place. -/
def replace (id : Id) (d : Doc) : AMap Id Doc → AMap Id Doc
  | [] => []
  | p :: m => if p.1 = id then (p.1, d) :: m else p :: replace id d m

/-- The new contents of a known document (a change behind its mutex). -/
def setDoc (k : Keyhive) (id : Id) (d : Doc) : Keyhive := { k with docs := replace id d k.docs }

/-- The end of a call on a document. -/
def closeDoc {α : Type} (k : Keyhive) (id : Id) (r : Doc × Res α) : Step Unit :=
  (k.setDoc id r.1, match r.2 with
    | .error e => .error (.cgka e)
    | .ok _ => .ok ())

/-- An invitation of the public individual — keyhive.rs:1818-1827: the owner is reset only if the merge succeeded. -/
def mergePublicInvite (E : Env) (k : Keyhive) (id : Id) (d : Doc) (op : SOp) : Step Unit :=
  match d.mergeCgkaInviteOp (E.hashCgka id) op publicSk with
  | (d', .error e) => k.closeDoc id (d', (.error e : Res Unit))
  | (d', .ok _) => k.closeDoc id (d'.resetCgkaOwner k.reg.me)

/-- `receive_cgka_op` — keyhive.rs:1780-1832. -/
def receiveCgkaOp (E : Env) (k : Keyhive) (id : Id) (op : SOp) : Step Unit :=
  if !E.validCgka id op then (k, .error .verification)
  else match AMap.get k.docs id with
    | none => (k, .error .unknownDocument)
    | some d =>
      match op.payload with
      | .add added pk _ _ _ =>
        if k.reg.me = added then
          match AMap.get k.pairs pk with
          | none => (k, .error .unknownInvitePrekey)
          | some sk => k.closeDoc id (d.mergeCgkaInviteOp (E.hashCgka id) op sk)
        else if k.reg.pub = added then k.mergePublicInvite E id d op
        else k.closeDoc id (d.mergeCgkaOp (E.hashCgka id) op)
      | _ => k.closeDoc id (d.mergeCgkaOp (E.hashCgka id) op)

/-- `receive_prekey_op` — keyhive.rs:1536-1586. -/
def receivePrekeyOp (E : Env) (k : Keyhive) (op : Prekey.KeyOp) : Step Unit :=
  let r := k.reg.receivePrekeyOp E.hashKey E.validKey op
  ({ k with reg := r.1 }, match r.2 with
    | .error e => .error (.prekey e)
    | .ok () => .ok ())

/-- `receive_static_event` — keyhive.rs:1747-1766. -/
def receive (E : Env) (k : Keyhive) : Event → Step Unit
  | .prekey op => k.receivePrekeyOp E op
  | .cgka id op => k.receiveCgkaOp E id op
  | .dlg s => k.receiveDelegation E s
  | .rev s => k.receiveRevocation E s

/-! ## Ingesting a batch -/

/-- One pass over the events that are left — keyhive.rs:2321-2334. Collects those to try again. -/
def pass (E : Env) : Keyhive → List Event → List Event → Step (List Event)
  | k, [], next => (k, .ok next)
  | k, e :: es, next =>
    match k.receive E e with
    | (k', .ok ()) => pass E k' es next
    | (k', .error err) =>
      if err.fatal then (k', .error err)
      else if err.isPrekey then pass E k' es next
      else pass E k' es (next ++ [e])

/-- Removing duplicates by digest: the first one stays — keyhive.rs:2311-2318. -/
def dedup (E : Env) (events : List Event) : List Event :=
  AMap.values (events.foldl (fun (m : AMap Nat Event) e => AMap.orInsert m (E.hashEvent e) e) [])

/-- `loop` of `ingest_unsorted_static_events` — keyhive.rs:2320-2362. The first argument bounds the rounds; `none` if it is used up. -/
def rounds (E : Env) (replayed : List Nat) : Nat → Keyhive → List Event → Keyhive × Option (Except Err (List Event))
  | 0, k, _ => (k, none)
  | n + 1, k, epoch =>
    match pass E k epoch [] with
    | (k', .error e) => (k', some (.error e))
    | (k', .ok []) =>
      ({ k' with pending := k'.pending.filter (fun e => !decide (E.hashEvent e ∈ replayed)) }, some (.ok []))
    | (k', .ok (e :: es)) =>
      if (e :: es).length = epoch.length then ({ k' with pending := e :: es }, some (.ok (e :: es)))
      else rounds E replayed n k' (e :: es)

/-- `ingest_unsorted_static_events` — keyhive.rs:2298-2363. `ord` stands for the iteration order of the `HashMap` of unique
events. The bound on the rounds is enough (`Props.C36_rounds`). -/
def ingest (E : Env) (ord : List Event → List Event) (k : Keyhive) (events : List Event) :
    Keyhive × Option (Except Err (List Event)) :=
  let epoch := ord (dedup E (events ++ k.pending))
  rounds E (k.pending.map E.hashEvent) (epoch.length + 1) k epoch

end Keyhive

end Verif.Keyhive
