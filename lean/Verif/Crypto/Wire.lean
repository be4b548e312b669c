import Verif.Core.Access

/-!
# Model of the bytes that are signed

A signature is over `bincode::serialize` of the payload alone: `try_sign_async` (keyhive_crypto/src/signer/async_signer.rs:46-58),
`try_sign_sync` (signer/memory.rs:71-79), checked by `try_verify` (signed.rs:167-172). Nothing in the bytes names the kind of the
payload. This file writes down the bytes for every kind that keyhive signs, and for the byte strings an application signs with
`trySign` (keyhive_wasm/src/js/keyhive.rs:174-178, js/signer.rs:135-139).

The format is bincode 1.3's default: numbers little-endian and of fixed width, the length of a vector, byte string or map in eight bytes,
the number of a variant in four, one byte before an optional value, nothing around structures, tuples and arrays. A `ShareKey` and
a `Digest` (digest.rs:148-155) are arrays of 32 bytes; a `VerifyingKey`, and with it every identifier, is written as a byte string, so
that the number 32 comes before it. These formats of the dependencies are taken from their documentation: their sources are not part
of the repository.
-/

namespace Verif.Wire

/-- Bytes. -/
abbrev Bytes := List UInt8

/-- `[u8; n]`. -/
abbrev Arr (n : Nat) := { l : Bytes // l.length = n }

/-- `Vec<T>`: a length is a `u64`. A `BTreeMap` is the vector of its pairs. -/
abbrev Vec (α : Type) := { l : List α // l.length < 2 ^ 64 }

/-- A number in `n` bytes, the least significant first. -/
def le : Nat → Nat → Bytes
  | 0, _ => []
  | n + 1, v => UInt8.ofNat v :: le n (v / 256)

/-- A `u32`; also the number of a variant. -/
def u32 (v : UInt32) : Bytes := le 4 v.toNat

/-- An array. -/
def arr {n : Nat} (a : Arr n) : Bytes := a.val

/-- A vector. -/
def vec {α : Type} (f : α → Bytes) (v : Vec α) : Bytes := le 8 v.val.length ++ v.val.flatMap f

/-- An optional value. -/
def opt {α : Type} (f : α → Bytes) : Option α → Bytes
  | none => [0]
  | some a => 1 :: f a

/-- A pair. -/
def pair {α β : Type} (f : α → Bytes) (g : β → Bytes) (p : α × β) : Bytes := f p.1 ++ g p.2

/-- A byte. -/
def byte (b : UInt8) : Bytes := [b]

/-- A `VerifyingKey`, and so `Identifier`, `DocumentId`, `MemberId` and `TreeId`: a byte string. -/
def name (k : Arr 32) : Bytes := le 8 32 ++ k.val

/-- `StaticDelegation` — keyhive_core/src/principal/group/delegation.rs:153-162. `T` is the type of content references. -/
structure Delegation (T : Type) where
  can : Access
  proof : Option (Arr 32)
  delegate : Arr 32
  afterRevocations : Vec (Arr 32)
  afterContent : Vec (Arr 32 × Vec T)

/-- `StaticRevocation` — keyhive_core/src/principal/group/revocation.rs:87-98. -/
structure Revocation (T : Type) where
  revoke : Arr 32
  proof : Option (Arr 32)
  afterContent : Vec (Arr 32 × Vec T)

/-- `NodeKey` — beekem/src/keys.rs:86-106. -/
inductive NodeKey where
  | shareKey (k : Arr 32)
  | conflictKeys (first second : Arr 32) (more : Vec (Arr 32))

/-- `TreeNodeIndex` — beekem/src/treemath.rs:29-30, 95-96, 167-171. -/
inductive NodeIndex where
  | leaf (i : UInt32)
  | inner (i : UInt32)

/-- `EncryptedSecret` — beekem/src/encrypted.rs:73-87; `Siv` — keyhive_crypto/src/siv.rs:27-29. -/
structure Encrypted where
  nonce : Arr 24
  ciphertext : Vec UInt8
  pairedPk : Arr 32

/-- `SecretStoreVersion` — beekem/src/secret_store.rs:105-116. -/
structure Version where
  pk : Arr 32
  sk : Vec (NodeIndex × Encrypted)
  encrypterPk : Arr 32

/-- `PathChange` — beekem/src/tree.rs:23-32; an inner node is a `SecretStore` (secret_store.rs:15-23), the vector of its versions. -/
structure PathChange where
  leafId : Arr 32
  leafIdx : UInt32
  leafPk : NodeKey
  path : Vec (UInt32 × Vec Version)
  removedKeys : Vec (Arr 32)

/-- `CgkaOperation` — beekem/src/operation.rs:53-77. -/
inductive CgkaOp where
  | add (addedId pk : Arr 32) (leafIndex : UInt32) (predecessors addPredecessors : Vec (Arr 32)) (docId : Arr 32)
  | remove (id : Arr 32) (leafIdx : UInt32) (removedKeys predecessors : Vec (Arr 32)) (docId : Arr 32)
  | update (id : Arr 32) (newPath : PathChange) (predecessors : Vec (Arr 32)) (docId : Arr 32)

/-- The number of the variant of `Access` — keyhive_core/src/access.rs:19-40. -/
def access : Access → UInt32
  | .relay => 0
  | .read => 1
  | .edit => 2
  | .admin => 3

/-- `after_content`. -/
def content {T : Type} (c : T → Bytes) (m : Vec (Arr 32 × Vec T)) : Bytes := vec (pair name (vec c)) m

/-- The bytes of a delegation. -/
def Delegation.bytes {T : Type} (c : T → Bytes) (d : Delegation T) : Bytes :=
  u32 (access d.can) ++ (opt arr d.proof ++ (name d.delegate ++ (vec arr d.afterRevocations ++ content c d.afterContent)))

/-- The bytes of a revocation. -/
def Revocation.bytes {T : Type} (c : T → Bytes) (r : Revocation T) : Bytes :=
  arr r.revoke ++ (opt arr r.proof ++ content c r.afterContent)

/-- The bytes of a node's key. -/
def NodeKey.bytes : NodeKey → Bytes
  | .shareKey k => u32 0 ++ arr k
  | .conflictKeys a b m => u32 1 ++ (arr a ++ (arr b ++ vec arr m))

/-- The bytes of a node's index. -/
def NodeIndex.bytes : NodeIndex → Bytes
  | .leaf i => u32 0 ++ u32 i
  | .inner i => u32 1 ++ u32 i

/-- The bytes of an encrypted secret. -/
def Encrypted.bytes (e : Encrypted) : Bytes := arr e.nonce ++ (vec byte e.ciphertext ++ arr e.pairedPk)

/-- The bytes of a version of a secret store. -/
def Version.bytes (v : Version) : Bytes := arr v.pk ++ (vec (pair NodeIndex.bytes Encrypted.bytes) v.sk ++ arr v.encrypterPk)

/-- The bytes of a change of a path. -/
def PathChange.bytes (p : PathChange) : Bytes :=
  name p.leafId ++ (u32 p.leafIdx ++ (p.leafPk.bytes ++ (vec (pair u32 (vec Version.bytes)) p.path ++ vec arr p.removedKeys)))

/-- The bytes of a group-key operation. -/
def CgkaOp.bytes : CgkaOp → Bytes
  | .add i pk l ps aps d => u32 0 ++ (name i ++ (arr pk ++ (u32 l ++ (vec arr ps ++ (vec arr aps ++ name d)))))
  | .remove i l ks ps d => u32 1 ++ (name i ++ (u32 l ++ (vec arr ks ++ (vec arr ps ++ name d))))
  | .update i p ps d => u32 2 ++ (name i ++ (p.bytes ++ (vec arr ps ++ name d)))

/-- What is signed with a user's key: prekeys (`AddKeyOp`, `RotateKeyOp` — individual/op/add_key.rs:6-11, rotate_key.rs:6-14),
delegations, revocations, group-key operations, and an application's own messages (`trySign`). -/
inductive Statement (T : Type) where
  | prekey (k : Arr 32)
  | rotation (old new : Arr 32)
  | delegation (d : Delegation T)
  | revocation (r : Revocation T)
  | groupKey (o : CgkaOp)
  | message (m : Vec UInt8)

/-- The bytes that are signed. `c` writes a content reference. -/
def Statement.bytes {T : Type} (c : T → Bytes) : Statement T → Bytes
  | .prekey k => arr k
  | .rotation old new => arr old ++ arr new
  | .delegation d => d.bytes c
  | .revocation r => r.bytes c
  | .groupKey o => o.bytes
  | .message m => vec byte m

end Verif.Wire
