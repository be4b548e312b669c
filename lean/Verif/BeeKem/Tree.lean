import Verif.BeeKem.Keys

/-!
# Model of `beekem/src/tree.rs`

`&mut self` functions return the new tree; out-of-bounds indexing and `expect` are
`CgkaError.panic`. `debug_assert!`s are not modelled (they are absent from release builds).
Loops take fuel and return `diverge` when it runs out.
-/

namespace Verif.BeeKem

open Verif.TreeMath

/-- `MemberId` — beekem/src/id.rs:17. -/
abbrev MemberId := Nat

/-- `MemberId::public()` — id.rs:26-30. -/
def MemberId.pub : MemberId := 0

/-- `LeafNode` — tree.rs:617-621. -/
structure LeafNode where
  id : MemberId
  pk : NodeKey
deriving DecidableEq, Repr

/-- `PathChange` — tree.rs:25-32. -/
structure PathChange where
  leafId : MemberId
  leafIdx : Nat
  leafPk : NodeKey
  path : List (Nat × SecretStore)
  removedKeys : List Pk
deriving DecidableEq, Repr

/-- `BeeKem` — tree.rs:64-72 (`doc_id` only enters nonces and is dropped). -/
structure BeeKem where
  nextLeafIdx : Nat
  leaves : List (Option LeafNode)
  innerNodes : List (Option SecretStore)
  treeSize : Nat
  idToLeafIdx : AMap MemberId Nat
deriving DecidableEq, Repr

namespace BeeKem

/-- `leaf` — tree.rs:497-501. -/
def leaf (t : BeeKem) (i : Nat) : Res (Option LeafNode) :=
  match t.leaves[i]? with
  | none => .error (.panic "Leaf index should be in bounds")
  | some l => .ok l

/-- `inner_node` — tree.rs:517-521 (and `inner_node_mut`, 523-527). -/
def innerNode (t : BeeKem) (i : Nat) : Res (Option SecretStore) :=
  match t.innerNodes[i]? with
  | none => .error (.panic "Inner node index should be in bounds")
  | some n => .ok n

/-- `insert_leaf_at` — tree.rs:529-532. -/
def insertLeafAt (t : BeeKem) (i : Nat) (id : MemberId) (pk : NodeKey) : Res BeeKem :=
  if i < t.leaves.length then .ok { t with leaves := t.leaves.set i (some { id, pk }) }
  else .error (.panic "index out of bounds")

/-- `insert_inner_node_at` — tree.rs:534-536. -/
def insertInnerNodeAt (t : BeeKem) (i : Nat) (s : SecretStore) : Res BeeKem :=
  if i < t.innerNodes.length then .ok { t with innerNodes := t.innerNodes.set i (some s) }
  else .error (.panic "index out of bounds")

/-- `blank_inner_node` — tree.rs:563-565. -/
def blankInnerNode (t : BeeKem) (i : Nat) : Res BeeKem :=
  if i < t.innerNodes.length then .ok { t with innerNodes := t.innerNodes.set i none }
  else .error (.panic "index out of bounds")

/-- `self.leaves[idx] = None`. -/
def blankLeaf (t : BeeKem) (i : Nat) : Res BeeKem :=
  if i < t.leaves.length then .ok { t with leaves := t.leaves.set i none }
  else .error (.panic "index out of bounds")

/-- `is_root` — tree.rs:594-596. -/
def isRoot (t : BeeKem) (i : TreeNodeIndex) : Bool := decide (i = root t.treeSize)

/-- Loop of `blank_path` — tree.rs:555-561. -/
def blankPathLoop : Nat → BeeKem → Nat → Res BeeKem
  | 0, _, _ => .error .diverge
  | fuel + 1, t, idx =>
    if t.isRoot (.inner idx) then t.blankInnerNode idx
    else do
      let t' ← t.blankInnerNode idx
      blankPathLoop fuel t' (parent (.inner idx))

/-- `blank_path` — tree.rs:555-561. -/
def blankPath (t : BeeKem) (idx : Nat) : Res BeeKem := blankPathLoop (t.treeSize + 1) t idx

/-- `blank_leaf_and_path` — tree.rs:140-143. -/
def blankLeafAndPath (t : BeeKem) (i : Nat) : Res BeeKem := do
  let t' ← t.blankLeaf i
  t'.blankPath (parent (.leaf i))

/-- `Vec::resize(n, None)`. -/
def resizeNone {α : Type} (l : List (Option α)) (n : Nat) : List (Option α) :=
  l.take n ++ List.replicate (n - l.length) none

/-- `grow_tree_to_size` — tree.rs:587-592. -/
def growTreeToSize (t : BeeKem) : BeeKem :=
  { t with
    leaves := resizeNone t.leaves (TreeSize.leafCount t.treeSize)
    innerNodes := resizeNone t.innerNodes (TreeSize.innerNodeCount t.treeSize) }

/-- `maybe_grow_tree` — tree.rs:579-585. -/
def maybeGrowTree (t : BeeKem) (newCount : Nat) : BeeKem :=
  if TreeSize.fromLeafCount newCount ≤ t.treeSize then t
  else growTreeToSize { t with treeSize := TreeSize.inc t.treeSize }

/-- `push_leaf` — tree.rs:147-155. -/
def pushLeaf (t : BeeKem) (id : MemberId) (pk : NodeKey) : Res (BeeKem × Nat) := do
  let t1 := t.maybeGrowTree t.nextLeafIdx
  let lIdx := t1.nextLeafIdx
  let t2 := { t1 with nextLeafIdx := lIdx + 1 }
  let t3 ← t2.insertLeafAt lIdx id pk
  let t4 := { t3 with idToLeafIdx := AMap.insert t3.idToLeafIdx id lIdx }
  let t5 ← t4.blankPath (parent (.leaf lIdx))
  pure (t5, lIdx)

/-- `BeeKem::new` — tree.rs:75-91. -/
def new (id : MemberId) (pk : Pk) : Res BeeKem := do
  let t : BeeKem :=
    { nextLeafIdx := 0, leaves := [], innerNodes := [], treeSize := TreeSize.fromLeafCount 1,
      idToLeafIdx := [] }
  let (t, _) ← (growTreeToSize t).pushLeaf id (.share pk)
  pure t

/-- `contains_id` — tree.rs:93-95. -/
def containsId (t : BeeKem) (id : MemberId) : Bool := AMap.contains t.idToLeafIdx id

/-- `leaf_index_for_id` — tree.rs:503-507. -/
def leafIndexForId (t : BeeKem) (id : MemberId) : Res Nat :=
  match AMap.get t.idToLeafIdx id with
  | none => .error .identifierNotFound
  | some i => .ok i

/-- `node_key_for_index` — tree.rs:481-495. -/
def nodeKeyForIndex (t : BeeKem) : TreeNodeIndex → Res NodeKey
  | .leaf i => do
    match ← t.leaf i with
    | none => .error .shareKeyNotFound
    | some l => .ok l.pk
  | .inner i => do
    match ← t.innerNode i with
    | none => .error .shareKeyNotFound
    | some s => s.nodeKey

/-- `node_key_for_id` — tree.rs:97-100. -/
def nodeKeyForId (t : BeeKem) (id : MemberId) : Res NodeKey := do
  let i ← t.leafIndexForId id
  t.nodeKeyForIndex (.leaf i)

/-- `member_count` — tree.rs:181-183. -/
def memberCount (t : BeeKem) : Nat := t.idToLeafIdx.length

/-- The direct path as inner indices; the loop of `treemath::direct_path` that never ends is
`diverge`. -/
def directPathRes (t : BeeKem) (i : Nat) : Res (List Nat) :=
  match directPath (.leaf i) t.treeSize with
  | none => .error .diverge
  | some l => .ok l

/-- `if let Some(store) = self.inner_node(idx) { removed.append(store.node_key().keys()) }` —
tree.rs:166-168 and 280-282. -/
def innerKeys (t : BeeKem) (i : Nat) : Res (List Pk) := do
  match ← t.innerNode i with
  | none => pure []
  | some s => do pure (← s.nodeKey).keys

/-- The loop collecting removed keys in `remove_id` — tree.rs:165-169. -/
def collectKeys (t : BeeKem) : List Nat → Res (List Pk)
  | [] => .ok []
  | i :: rest => do
    let ks ← t.innerKeys i
    let ks' ← collectKeys t rest
    pure (ks ++ ks')

/-- The tombstone loop of `remove_id` — tree.rs:173-176. `next_leaf_idx - 1` at zero is an
underflow. -/
def dropTombstones : Nat → BeeKem → Res BeeKem
  | 0, _ => .error .diverge
  | fuel + 1, t =>
    if t.nextLeafIdx = 0 then .error (.panic "attempt to subtract with overflow")
    else do
      match ← t.leaf (t.nextLeafIdx - 1) with
      | some _ => .ok t
      | none => do
        let t' ← t.blankPath (parent (.leaf (t.nextLeafIdx - 1)))
        dropTombstones fuel { t' with nextLeafIdx := t'.nextLeafIdx - 1 }

/-- `remove_id` — tree.rs:159-178. -/
def removeId (t : BeeKem) (id : MemberId) : Res (BeeKem × Nat × List Pk) :=
  if t.memberCount = 1 then .error .removeLastMember
  else do
    let lIdx ← t.leafIndexForId id
    let path ← t.directPathRes lIdx
    let removed ← t.collectKeys path
    let t1 ← t.blankLeafAndPath lIdx
    let t2 := { t1 with idToLeafIdx := AMap.erase t1.idToLeafIdx id }
    let t3 ← dropTombstones (t2.nextLeafIdx + 1) t2
    pure (t3, lIdx, removed)

/-- `for (id, idx) in removed_ids` of the concurrent-membership fix-up — tree.rs:114-122. -/
def blankRemoved : BeeKem → List (MemberId × Nat) → Res BeeKem
  | t, [] => .ok t
  | t, (_, idx) :: rest => do
    let t' ← t.blankLeafAndPath idx
    blankRemoved t' rest

/-- The `while` loop popping leaves — tree.rs:123-131. `acc` is `leaves_to_sort`. The loop runs at
most `next_leaf_idx` times, which is the fuel given. -/
def popLeaves : Nat → BeeKem → List MemberId → List LeafNode → Res (BeeKem × List LeafNode)
  | 0, t, _, acc => .ok (t, acc)
  | fuel + 1, t, added, acc =>
    if added.isEmpty || decide (t.nextLeafIdx = 0) then .ok (t, acc)
    else do
      let leafIdx := t.nextLeafIdx - 1
      let (added', acc') ← (do
        match ← t.leaf leafIdx with
        | some l => pure (sremove added l.id, acc ++ [l])
        | none => pure (added, acc))
      let t' ← t.blankLeafAndPath leafIdx
      popLeaves fuel { t' with nextLeafIdx := leafIdx } added' acc'

/-- Re-pushing the sorted leaves — tree.rs:133-135. -/
def pushAll : BeeKem → List LeafNode → Res BeeKem
  | t, [] => .ok t
  | t, l :: rest => do
    let (t', _) ← t.pushLeaf l.id l.pk
    pushAll t' rest

/-- `sort_leaves_and_blank_paths_for_concurrent_membership_changes` — tree.rs:108-136. -/
def sortLeavesAndBlankPaths (t : BeeKem) (added : List MemberId) (removed : List (MemberId × Nat)) :
    Res BeeKem := do
  let added' := removed.foldl (fun a r => sremove a r.1) added
  let t1 ← t.blankRemoved removed
  let (t2, ls) ← popLeaves t1.nextLeafIdx t1 added' []
  pushAll t2 (isort (fun a b => decide (a.id ≤ b.id)) ls)

/-- `has_root_key` — tree.rs:354-364. -/
def hasRootKey (t : BeeKem) : Res Bool :=
  match root t.treeSize with
  | .leaf _ => .error (.panic "BeeKEM should always have a root at an inner node.")
  | .inner i => do
    match ← t.innerNode i with
    | some r => pure (!r.hasConflict)
    | none => pure false

/-- `should_skip_for_resolution` — tree.rs:545-553 (with `is_blank`, 538-543). -/
def shouldSkip (t : BeeKem) : TreeNodeIndex → Res Bool
  | .leaf i => do pure (← t.leaf i).isNone
  | .inner i => do
    match ← t.innerNode i with
    | none => pure true
    | some s => pure s.hasConflict

/-- `append_resolution` — tree.rs:603-614 (recursion depth bounded by fuel). -/
def appendResolution (t : BeeKem) : Nat → TreeNodeIndex → List TreeNodeIndex → Res (List TreeNodeIndex)
  | 0, _, _ => .error .diverge
  | fuel + 1, idx, acc => do
    if ← t.shouldSkip idx then
      match idx with
      | .leaf _ => pure acc
      | .inner i => do
        let acc ← appendResolution t fuel (left i) acc
        appendResolution t fuel (right i) acc
    else pure (acc ++ [idx])

/-- The loop over the sibling resolution in `encrypt_new_secret_store_for_parent` —
tree.rs:458-475. -/
def encryptForResolution (t : BeeKem) (childIdx : TreeNodeIndex) (childSk parentSk : Sk) :
    List TreeNodeIndex → Bool → AMap TreeNodeIndex EncryptedSecret →
      Res (AMap TreeNodeIndex EncryptedSecret)
  | [], _, m => .ok m
  | idx :: rest, used, m => do
    match ← t.nodeKeyForIndex idx with
    | .conflict .. => .error (.panic "Sibling resolution nodes should have exactly one ShareKey")
    | .share nextPk =>
      let e := encryptSecret parentSk childSk nextPk
      let m1 := if used then m else AMap.insert m childIdx e
      encryptForResolution t childIdx childSk parentSk rest true (AMap.insert m1 idx e)

/-- A source of fresh secrets: the `n`-th output of the CSPRNG. -/
abbrev Gen := Nat → Sk

/-- `encrypt_new_secret_store_for_parent` — tree.rs:428-479. Returns the store and the advanced
CSPRNG position. -/
def encryptNewSecretStoreForParent (t : BeeKem) (g : Gen) (c : Nat) (childIdx : TreeNodeIndex)
    (childPk : Pk) (childSk : Sk) (parentPk : Pk) (parentSk : Sk) : Res (SecretStore × Nat) := do
  let res ← t.appendResolution (t.treeSize + 1) (sibling childIdx) []
  if res.isEmpty then
    let pairedSk := g c
    let e := encryptSecret parentSk childSk (shareKey pairedSk)
    pure (SecretStore.new parentPk childPk (AMap.insert [] childIdx e), c + 1)
  else
    let m ← t.encryptForResolution childIdx childSk parentSk res false []
    pure (SecretStore.new parentPk childPk m, c)

/-- State of the loop of `encrypt_path` — tree.rs:271-307. -/
structure EncState where
  tree : BeeKem
  sks : ShareKeyMap
  rng : Nat
  childIdx : TreeNodeIndex
  childPk : Pk
  childSk : Sk
  path : List (Nat × SecretStore)
  removed : List Pk

/-- One iteration of the loop of `encrypt_path` — tree.rs:280-306 (with `encrypt_key_for_parent`,
399-420). -/
def encryptStep (g : Gen) (s : EncState) : Res EncState := do
  let p := parent s.childIdx
  let rk ← s.tree.innerKeys p
  let newSk := g s.rng
  let newPk := shareKey newSk
  let (store, rng) ← s.tree.encryptNewSecretStoreForParent g (s.rng + 1) s.childIdx s.childPk
    s.childSk newPk newSk
  let t ← s.tree.insertInnerNodeAt p store
  pure { tree := t, sks := AMap.insert s.sks newPk newSk, rng, childIdx := .inner p,
         childPk := newPk, childSk := newSk, path := s.path ++ [(p, store)],
         removed := s.removed ++ rk }

/-- The loop of `encrypt_path` — tree.rs:279-307. -/
def encryptLoop (g : Gen) : Nat → EncState → Res EncState
  | 0, _ => .error .diverge
  | fuel + 1, s =>
    if s.tree.isRoot s.childIdx then .ok s
    else do
      let s' ← encryptStep g s
      encryptLoop g fuel s'

/-- `encrypt_path` — tree.rs:254-309. Returns the new tree, the extended key map, the advanced
CSPRNG position, the root secret (`PcsKey`) and the path change. (The code returns `Ok(Some(..))`
on every successful path.) -/
def encryptPath (t : BeeKem) (g : Gen) (c : Nat) (id : MemberId) (pk : Pk) (sks : ShareKeyMap) :
    Res (BeeKem × ShareKeyMap × Nat × Sk × PathChange) := do
  let leafIdx ← t.leafIndexForId id
  let removed := (← t.nodeKeyForId id).keys
  let t1 ← t.insertLeafAt leafIdx id (.share pk)
  match AMap.get sks pk with
  | none => .error .secretKeyNotFound
  | some sk => do
    let s ← encryptLoop g (t1.treeSize + 1)
      { tree := t1, sks, rng := c, childIdx := .leaf leafIdx, childPk := pk, childSk := sk,
        path := [], removed }
    pure (s.tree, s.sks, s.rng, s.childSk,
      { leafId := id, leafIdx, leafPk := .share pk, path := s.path, removedKeys := s.removed })

/-- `is_valid_path` — tree.rs:569-576 (the caller has checked that the id is present). -/
def isValidPath (t : BeeKem) (pc : PathChange) : Res Bool := do
  let leafIdx ← t.leafIndexForId pc.leafId
  let p ← t.directPathRes pc.leafIdx
  pure (decide (pc.path.length = p.length) && decide (leafIdx = pc.leafIdx))

/-- The loop of `apply_path` over the new inner nodes — tree.rs:343-350. -/
def applyPathLoop (removed : List Pk) : BeeKem → List (Nat × SecretStore) → Res BeeKem
  | t, [] => .ok t
  | t, (idx, node) :: rest => do
    let t' ← (do
      match ← t.innerNode idx with
      | some cur => t.insertInnerNodeAt idx (cur.merge node removed)
      | none => t.insertInnerNodeAt idx node)
    applyPathLoop removed t' rest

/-- `apply_path` — tree.rs:313-351. -/
def applyPath (t : BeeKem) (pc : PathChange) : Res BeeKem :=
  if t.containsId pc.leafId then do
    let leafIdx ← t.leafIndexForId pc.leafId
    let valid ← t.isValidPath pc
    match ← t.leaf leafIdx with
    | none => .error (.panic "Leaf for present ID should not be None")
    | some l => do
      let newKey ← l.pk.merge pc.leafPk pc.removedKeys
      let t1 ← t.insertLeafAt leafIdx pc.leafId newKey
      if valid then applyPathLoop pc.removedKeys t1 pc.path
      else t1.blankPath (parent (.leaf leafIdx))
  else .ok t

/-- `maybe_decrypt_parent_key` — tree.rs:371-396; returns the extended key map as well. -/
def maybeDecryptParentKey (t : BeeKem) (childIdx : TreeNodeIndex) (childKey : NodeKey)
    (seen : List TreeNodeIndex) (sks : ShareKeyMap) : Res (ShareKeyMap × Option Sk) := do
  match ← t.innerNode (parent childIdx) with
  | none => pure (sks, none)
  | some p =>
    match ← p.nodeKey with
    | .conflict .. => pure (sks, none)
    | .share parentPk =>
      match AMap.get sks parentPk with
      | some sk => pure (sks, some sk)
      | none => do
        let secret ← p.decryptSecret childKey sks seen
        pure (AMap.insert sks parentPk secret, some secret)

/-- State of the loop of `decrypt_tree_secret` — tree.rs:214-236. -/
structure DecState where
  sks : ShareKeyMap
  childIdx : TreeNodeIndex
  childKey : NodeKey
  seen : List TreeNodeIndex
  last : Option Sk

/-- Inner loop of `decrypt_tree_secret`: skip blank and conflict parents — tree.rs:222-225. Returns
the child index below the first parent that is not skipped. -/
def skipLoop (t : BeeKem) : Nat → TreeNodeIndex → Res TreeNodeIndex
  | 0, _ => .error .diverge
  | fuel + 1, childIdx => do
    if ← t.shouldSkip (.inner (parent childIdx)) then
      skipLoop t fuel (.inner (parent childIdx))
    else pure childIdx

/-- One iteration of the outer loop — tree.rs:221-235. -/
def decryptStep (t : BeeKem) (s : DecState) : Res DecState := do
  let childIdx ← t.skipLoop (t.treeSize + 1) s.childIdx
  let (sks, r) ← t.maybeDecryptParentKey childIdx s.childKey s.seen s.sks
  match r with
  | none => .error (.panic "Non-blank, non-conflict parent should have a secret we can decrypt")
  | some _ =>
    let p : TreeNodeIndex := .inner (parent childIdx)
    let key ← t.nodeKeyForIndex p
    pure { sks, childIdx := p, childKey := key, seen := s.seen ++ [p], last := r }

/-- Outer loop of `decrypt_tree_secret` — tree.rs:220-236. -/
def decryptLoop (t : BeeKem) : Nat → DecState → Res DecState
  | 0, _ => .error .diverge
  | fuel + 1, s =>
    if t.isRoot s.childIdx then .ok s
    else do
      let s' ← t.decryptStep s
      decryptLoop t fuel s'

/-- `decrypt_tree_secret` — tree.rs:197-238. On success also returns the extended key map. (On an
error the Rust code may already have added some correctly decrypted keys to the map; the model
returns only the error.) -/
def decryptTreeSecret (t : BeeKem) (owner : MemberId) (sks : ShareKeyMap) : Res (ShareKeyMap × Sk) := do
  let leafIdx ← match t.leafIndexForId owner with
    | .ok i => pure i
    | .error .identifierNotFound => t.leafIndexForId MemberId.pub
    | .error e => .error e
  if !(← t.hasRootKey) then .error .noRootKey
  else
    match ← t.leaf leafIdx with
    | none => .error (.panic "Leaf should not be blank")
    | some l => do
      let s ← t.decryptLoop (t.treeSize + 1)
        { sks, childIdx := .leaf leafIdx, childKey := l.pk, seen := [.leaf leafIdx], last := none }
      match s.last with
      | none => .error .noRootKey
      | some sk => pure (s.sks, sk)

end BeeKem

end Verif.BeeKem
