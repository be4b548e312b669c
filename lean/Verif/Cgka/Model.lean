import Verif.Cgka.Graph

/-!
# Model of `beekem/src/cgka.rs` and `beekem/src/pcs_key.rs`

`H : SOp → Nat` is `Digest::hash` on signed operations. Signing is a parameter
`sign : Payload → Res SOp` (`try_sign_async`, which may fail). Randomness is a generator `g : BeeKem.Gen` and a
start position. Functions that take `&mut self` and can fail after changing `self` return the new state
next to the result; the ones returning `Res Cgka` leave `self` as it was when they fail.

Simplifications: when `encrypt_path` fails, the tree is left as before the call; when
`decrypt_tree_secret` fails, keys it had already added to `owner_sks` are forgotten; `doc_id` is dropped.
-/

namespace Verif.Cgka

open Verif.BeeKem

/-- `Digest<PcsKey>` — pcs_key.rs:96 (symbolic: collision free). -/
structure PcsHash where
  of : Sk
deriving DecidableEq, Repr

/-- `Cgka` — cgka.rs:50-71. -/
structure Cgka where
  ownerId : MemberId
  ownerSks : ShareKeyMap
  tree : BeeKem
  graph : Graph
  pending : Bool
  pcsKeys : AMap PcsHash Sk
  pcsKeyOps : AMap PcsHash Nat
  originalMember : MemberId × Pk
  initAddOp : SOp
deriving DecidableEq, Repr

/-- A panic or a loop that never ends, which no caller can catch. -/
def fatal : CgkaError → Bool
  | .panic _ => true
  | .diverge => true
  | _ => false

namespace Cgka

/-- `Cgka::new_from_init_add` — cgka.rs:105-126. -/
def newFromInitAdd (H : SOp → Nat) (ownerId : MemberId) (ownerPk : Pk) (initAddOp : SOp) : Res Cgka := do
  let tree ← BeeKem.new ownerId ownerPk
  pure { ownerId, ownerSks := [], tree, graph := Graph.new.addLocalOp H initAddOp, pending := false,
         pcsKeys := [], pcsKeyOps := [], originalMember := (ownerId, ownerPk), initAddOp }

/-- `Cgka::new` — cgka.rs:93-102. -/
def new (H : SOp → Nat) (sign : Payload → Res SOp) (ownerId : MemberId) (ownerPk : Pk) : Res Cgka := do
  newFromInitAdd H ownerId ownerPk (← sign (.initAdd ownerId ownerPk))

/-- `Cgka::with_new_owner` — cgka.rs:129-140. -/
def withNewOwner (c : Cgka) (myId : MemberId) (sks : ShareKeyMap) : Cgka :=
  { c with ownerId := myId, ownerSks := sks }

/-- `Cgka::has_pcs_key` — cgka.rs:231-235. -/
def hasPcsKey (c : Cgka) : Res Bool := do
  let b ← c.tree.hasRootKey
  pure (b && c.graph.hasSingleHead && decide (c.graph.addHeads.length < 2))

/-- `Cgka::group_size` — cgka.rs:363-365. -/
def groupSize (c : Cgka) : Nat := c.tree.memberCount

/-- `Cgka::insert_pcs_key` — cgka.rs:597-602. -/
def insertPcsKey (c : Cgka) (k : Sk) (opHash : Nat) : Cgka :=
  { c with pcsKeyOps := AMap.insert c.pcsKeyOps ⟨k⟩ opHash, pcsKeys := AMap.insert c.pcsKeys ⟨k⟩ k }

/-- `Cgka::apply_operation` — cgka.rs:417-434. -/
def applyOperation (H : SOp → Nat) (c : Cgka) (op : SOp) : Res Cgka :=
  if c.graph.containsOpHash (H op) then .ok c
  else do
    let tree ← (match op.payload with
      | .add id pk _ _ _ => do pure (← c.tree.pushLeaf id (.share pk)).1
      | .remove id _ _ _ => do pure (← c.tree.removeId id).1
      | .update _ newPath _ => c.tree.applyPath newPath)
    pure { c with tree, graph := c.graph.addOp H op op.payload.preds }

/-- Applying a list of operations in turn. -/
def applyOps (H : SOp → Nat) : Cgka → List SOp → Res Cgka
  | c, [] => .ok c
  | c, o :: os => do applyOps H (← c.applyOperation H o) os

/-- `added_ids` of an epoch — cgka.rs:462-464. -/
def addedIds (epoch : List SOp) : List MemberId :=
  sextend [] (epoch.filterMap (fun o => match o.payload with | .add id _ _ _ _ => some id | _ => none))

/-- `removed_ids` of an epoch — cgka.rs:465-467. -/
def removedIds (epoch : List SOp) : List (MemberId × Nat) :=
  sextend [] (epoch.filterMap (fun o => match o.payload with | .remove id l _ _ => some (id, l) | _ => none))

/-- One epoch of `Cgka::apply_epochs` — cgka.rs:441-477. -/
def applyEpoch (H : SOp → Nat) (c : Cgka) (epoch : List SOp) : Res Cgka :=
  if epoch.length = 1 ∨ epoch.all (fun o => !o.payload.isStructural) = true then c.applyOps H epoch
  else do
    let c1 ← c.applyOps H epoch
    let tree ← c1.tree.sortLeavesAndBlankPaths (addedIds epoch) (removedIds epoch)
    pure { c1 with tree }

/-- `Cgka::apply_epochs` — cgka.rs:439-480. -/
def applyEpochs (H : SOp → Nat) : Cgka → List (List SOp) → Res Cgka
  | c, [] => .ok c
  | c, e :: es => do applyEpochs H (← c.applyEpoch H e) es

/-- `Cgka::pcs_key_from_tree_root` — cgka.rs:483-501. -/
def pcsKeyFromTreeRoot (c : Cgka) : Res (Cgka × Sk) :=
  match c.tree.decryptTreeSecret c.ownerId c.ownerSks with
  | .ok (sks, k) => .ok ({ c with ownerSks := sks }, k)
  | .error e =>
    if fatal e then .error e
    else if c.ownerId ≠ MemberId.pub ∧ c.tree.containsId MemberId.pub = true then do
      let (sks, k) ← c.tree.decryptTreeSecret MemberId.pub c.ownerSks
      pure ({ c with ownerSks := sks }, k)
    else .error e

/-- The fresh state a rebuild starts from — cgka.rs:560-566 and 583-589. -/
def rebuildStart (H : SOp → Nat) (c : Cgka) : Res Cgka := do
  let r ← newFromInitAdd H c.originalMember.1 c.originalMember.2 c.initAddOp
  pure (r.withNewOwner c.ownerId c.ownerSks)

/-- `Digest::hash(&epochs.last()[0])`. -/
def lastHash (H : SOp → Nat) (epochs : List (List SOp)) : Res Nat :=
  match epochs.getLast? with
  | some (o :: _) => .ok (H o)
  | _ => .error (.panic "empty")

/-- `Cgka::rebuild_cgka` — cgka.rs:559-573. -/
def rebuildCgka (H : SOp → Nat) (c : Cgka) (epochs : List (List SOp)) : Res Cgka := do
  let r0 ← c.rebuildStart H
  let r ← r0.applyEpochs H epochs
  if ← r.hasPcsKey then
    let (r', k) ← r.pcsKeyFromTreeRoot
    pure (r'.insertPcsKey k (← lastHash H epochs))
  else pure r

/-- `extend` of a map: entries of `other` win. -/
def extendMap {K V : Type} [DecidableEq K] (m other : AMap K V) : AMap K V :=
  other.foldl (fun acc p => AMap.insert acc p.1 p.2) m

/-- `Cgka::update_cgka_from` — cgka.rs:606-617. -/
def updateCgkaFrom (c other : Cgka) : Cgka :=
  { c with tree := other.tree, ownerSks := ShareKeyMap.extend c.ownerSks other.ownerSks,
           pcsKeys := extendMap c.pcsKeys other.pcsKeys, pcsKeyOps := extendMap c.pcsKeyOps other.pcsKeyOps,
           pending := other.pending }

/-- `Cgka::should_replay` — cgka.rs:542-545. -/
def shouldReplay (c : Cgka) : Bool :=
  !c.graph.heads.isEmpty && (c.pending || !c.graph.hasSingleHead)

/-- `Cgka::replay_ops_graph` — cgka.rs:549-555. -/
def replayOpsGraph (H : SOp → Nat) (c : Cgka) : Res Cgka := do
  let ordered ← c.graph.topsortGraph
  let rebuilt ← c.rebuildCgka H ordered
  pure { c.updateCgkaFrom rebuilt with pending := false }

/-- `if self.should_replay() { self.replay_ops_graph()? }`. -/
def replayIfNeeded (H : SOp → Nat) (c : Cgka) : Res Cgka :=
  if c.shouldReplay then c.replayOpsGraph H else .ok c

/-- `Cgka::rebuild_pcs_key` — cgka.rs:578-594. -/
def rebuildPcsKey (H : SOp → Nat) (c : Cgka) (epochs : List (List SOp)) : Res (Cgka × Sk) := do
  let r0 ← c.rebuildStart H
  let r ← r0.applyEpochs H epochs
  let (_, k) ← r.pcsKeyFromTreeRoot
  pure (c.insertPcsKey k (← lastHash H epochs), k)

/-- `Cgka::derive_pcs_key_for_op` — cgka.rs:528-539. -/
def derivePcsKeyForOp (H : SOp → Nat) (c : Cgka) (opHash : Nat) : Res (Cgka × Sk) :=
  if !c.graph.containsOpHash opHash then .error .unknownPcsKey
  else do
    let ops ← c.graph.topsortForHeads [opHash]
    c.rebuildPcsKey H ops

/-- The attempt to use the current root key — cgka.rs:516-522. `.ok none` when it does not apply. -/
def currentRootFor (c : Cgka) (h : PcsHash) : Cgka × Res (Option Sk) :=
  match c.hasPcsKey with
  | .error e => (c, .error e)
  | .ok false => (c, .ok none)
  | .ok true =>
    match c.pcsKeyFromTreeRoot with
    | .error e => if fatal e then (c, .error e) else (c, .ok none)
    | .ok (c', k) => (c', .ok (if (⟨k⟩ : PcsHash) = h then some k else none))

/-- `Cgka::pcs_key_from_hashes` — cgka.rs:508-524. -/
def pcsKeyFromHashes (H : SOp → Nat) (c : Cgka) (h : PcsHash) (opHash : Nat) : Cgka × Res Sk :=
  match AMap.get c.pcsKeys h with
  | some k => (c, .ok k)
  | none =>
    match c.currentRootFor h with
    | (c1, .error e) => (c1, .error e)
    | (c1, .ok (some k)) => (c1, .ok k)
    | (c1, .ok none) =>
      match c1.derivePcsKeyForOp H opHash with
      | .error e => (c1, .error e)
      | .ok (c2, k) => (c2, .ok k)

/-- `Cgka::add` — cgka.rs:239-266. -/
def add (H : SOp → Nat) (sign : Payload → Res SOp) (c : Cgka) (id : MemberId) (pk : Pk) :
    Cgka × Res (Option SOp) :=
  if c.tree.containsId id then (c, .ok none)
  else
    match c.replayIfNeeded H with
    | .error e => (c, .error e)
    | .ok c1 =>
      match c1.tree.pushLeaf id (.share pk) with
      | .error e => (c1, .error e)
      | .ok (tree, leafIndex) =>
        let c2 := { c1 with tree }
        match sign (.add id pk leafIndex c1.graph.heads c1.graph.addHeads) with
        | .error e => (c2, .error e)
        | .ok op => ({ c2 with graph := c1.graph.addLocalOp H op }, .ok (some op))

/-- `Cgka::remove` — cgka.rs:283-309. -/
def remove (H : SOp → Nat) (sign : Payload → Res SOp) (c : Cgka) (id : MemberId) : Cgka × Res (Option SOp) :=
  if !c.tree.containsId id then (c, .ok none)
  else
    match c.replayIfNeeded H with
    | .error e => (c, .error e)
    | .ok c1 =>
      if c1.groupSize = 1 then (c1, .error .removeLastMember)
      else
        match c1.tree.removeId id with
        | .error e => (c1, .error e)
        | .ok (tree, leafIdx, removedKeys) =>
          let c2 := { c1 with tree }
          match sign (.remove id leafIdx removedKeys c1.graph.heads) with
          | .error e => (c2, .error e)
          | .ok op => ({ c2 with graph := c1.graph.addLocalOp H op }, .ok (some op))

/-- Whose leaf is updated and with which key pair — cgka.rs:326-339. -/
def updateTarget (c : Cgka) (newSk : Sk) : Res (MemberId × Pk × Sk) :=
  if c.tree.containsId c.ownerId then .ok (c.ownerId, shareKey newSk, newSk)
  else
    match c.tree.nodeKeyForId MemberId.pub with
    | .error e => if fatal e then .error e else .error .identifierNotFound
    | .ok (.conflict _ _ _) => .error .shareKeyNotFound
    | .ok (.share pk) =>
      match AMap.get c.ownerSks pk with
      | none => .error .shareKeyNotFound
      | some sk => .ok (MemberId.pub, pk, sk)

/-- `Cgka::update` — cgka.rs:316-360. (`encrypt_path` never returns `Ok(None)`, so the branch at 357-359 is
left out.) -/
def update (H : SOp → Nat) (sign : Payload → Res SOp) (g : BeeKem.Gen) (n : Nat) (c : Cgka) (newSk : Sk) :
    Cgka × Res (Sk × SOp) :=
  match c.replayIfNeeded H with
  | .error e => (c, .error e)
  | .ok c1 =>
    match c1.updateTarget newSk with
    | .error e => (c1, .error e)
    | .ok (uid, upk, usk) =>
      let c2 := { c1 with ownerSks := AMap.insert c1.ownerSks upk usk }
      match c2.tree.encryptPath g n uid upk c2.ownerSks with
      | .error e => (c2, .error e)
      | .ok (tree, sks, _, k, path) =>
        let c3 := { c2 with tree, ownerSks := sks }
        match sign (.update uid path c3.graph.heads) with
        | .error e => (c3, .error e)
        | .ok op => (({ c3 with graph := c3.graph.addLocalOp H op } : Cgka).insertPcsKey k (H op), .ok (k, op))

/-- `Cgka::merge_concurrent_operation` — cgka.rs:374-405. -/
def mergeConcurrentOperation (H : SOp → Nat) (c : Cgka) (op : SOp) : Cgka × Res Bool :=
  if c.graph.containsOpHash (H op) then (c, .ok false)
  else if !c.graph.containsPredecessors op.payload.preds then (c, .error .outOfOrderOperation)
  else if !c.graph.headsContainedIn op.payload.preds then
    if c.pending then ({ c with graph := c.graph.addOp H op op.payload.preds }, .ok true)
    else if op.payload.isStructural then
      ({ c with pending := true, graph := c.graph.addOp H op op.payload.preds }, .ok true)
    else
      match c.applyOperation H op with
      | .error e => (c, .error e)
      | .ok c1 => (c1, .ok true)
  else
    match c.replayIfNeeded H with
    | .error e => (c, .error e)
    | .ok c1 =>
      match c1.applyOperation H op with
      | .error e => (c1, .error e)
      | .ok c2 => (c2, .ok true)

/-- Merge of two `CaMap`s as maps (`Merge for CaMap`; the trunk's value wins). -/
def mergeKeys (m other : AMap PcsHash Sk) : AMap PcsHash Sk :=
  other.foldl (fun acc p => AMap.orInsert acc p.1 p.2) m

/-- `Merge for Cgka` — cgka.rs:628-637, `Fork` being a clone (620-626). -/
def merge (H : SOp → Nat) (c fork : Cgka) : Res Cgka :=
  let c1 := { c with ownerSks := ShareKeyMap.extend c.ownerSks fork.ownerSks, graph := c.graph.merge fork.graph,
                     pcsKeys := mergeKeys c.pcsKeys fork.pcsKeys, pcsKeyOps := extendMap c.pcsKeyOps fork.pcsKeyOps }
  match c1.replayOpsGraph H with
  | .ok c2 => .ok c2
  | .error _ => .error (.panic "two valid graphs should always merge causal consistency")

end Cgka

/-! ## Content keys -/

/-- The symmetric key of an `ApplicationSecret` (symbolic: the inputs of the key derivation, whose
encoding into bytes is the subject of `Verif.Cgka.ContentKey`) — pcs_key.rs:78-105. -/
structure AppKey where
  pcs : Sk
  predRefs : Nat
  contentRef : Nat
deriving DecidableEq, Repr

/-- `ApplicationSecret` — pcs_key.rs:15-23 (without the nonce). -/
structure AppSecret where
  key : AppKey
  pcsKeyHash : PcsHash
  pcsUpdateOpHash : Nat
  contentRef : Nat
  predRefs : Nat
deriving DecidableEq, Repr

/-- `PcsKey::derive_application_secret` — pcs_key.rs:76-105. -/
def deriveApplicationSecret (k : Sk) (contentRef predRefs opHash : Nat) : AppSecret :=
  { key := ⟨k, predRefs, contentRef⟩, pcsKeyHash := ⟨k⟩, pcsUpdateOpHash := opHash, contentRef, predRefs }

/-- `EncryptedContent`, symbolic: the plaintext sealed under a key, plus the public fields —
encrypted.rs:13-33 and `try_encrypt`, pcs_key.rs:51-65. -/
structure EncContent where
  sealedBy : AppKey
  plain : Nat
  pcsKeyHash : PcsHash
  pcsUpdateOpHash : Nat
  contentRef : Nat
  predRefs : Nat
deriving DecidableEq, Repr

/-- `ApplicationSecret::try_encrypt` — pcs_key.rs:51-65. -/
def AppSecret.encrypt (s : AppSecret) (plain : Nat) : EncContent :=
  { sealedBy := s.key, plain, pcsKeyHash := s.pcsKeyHash, pcsUpdateOpHash := s.pcsUpdateOpHash,
    contentRef := s.contentRef, predRefs := s.predRefs }

/-- Opening with a key (authenticated: only the sealing key opens). -/
def EncContent.openWith (e : EncContent) (k : AppKey) : Option Nat := if k = e.sealedBy then some e.plain else none

namespace Cgka

/-- The end of `new_app_secret_for` — cgka.rs:193-205. -/
def finishAppSecret (c : Cgka) (k : Sk) (op : Option SOp) (contentRef predRefs : Nat) :
    Cgka × Res (AppSecret × Option SOp) :=
  match AMap.get c.pcsKeyOps ⟨k⟩ with
  | none => (c, .error (.panic "PcsKey hash should be present because we derived it above"))
  | some h => (c, .ok (deriveApplicationSecret k contentRef predRefs h, op))

/-- `Cgka::new_app_secret_for` — cgka.rs:158-206. -/
def newAppSecretFor (H : SOp → Nat) (sign : Payload → Res SOp) (g : BeeKem.Gen) (n : Nat) (c : Cgka)
    (contentRef predRefs : Nat) : Cgka × Res (AppSecret × Option SOp) :=
  match c.hasPcsKey with
  | .error e => (c, .error e)
  | .ok false =>
    match c.update H sign g (n + 1) (g n) with
    | (c1, .error e) => (c1, .error e)
    | (c1, .ok (k, op)) => (c1.insertPcsKey k (H op)).finishAppSecret k (some op) contentRef predRefs
  | .ok true =>
    match c.pcsKeyFromTreeRoot with
    | .error e => (c, .error e)
    | .ok (c1, k) =>
      if AMap.contains c1.pcsKeys ⟨k⟩ then c1.finishAppSecret k none contentRef predRefs
      else
        match c1.graph.heads with
        | [] => c1.finishAppSecret k none contentRef predRefs
        | h :: _ => (c1.insertPcsKey k h).finishAppSecret k none contentRef predRefs

/-- `Cgka::decryption_key_for` — cgka.rs:213-229. -/
def decryptionKeyFor (H : SOp → Nat) (c : Cgka) (e : EncContent) : Cgka × Res AppKey :=
  match c.pcsKeyFromHashes H e.pcsKeyHash e.pcsUpdateOpHash with
  | (c1, .error err) => (c1, .error err)
  | (c1, .ok k) =>
    let c2 := if AMap.contains c1.pcsKeys e.pcsKeyHash then c1 else c1.insertPcsKey k e.pcsUpdateOpHash
    (c2, .ok (deriveApplicationSecret k e.contentRef e.predRefs e.pcsUpdateOpHash).key)

end Cgka

end Verif.Cgka
