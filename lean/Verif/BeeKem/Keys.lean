import Verif.Util.AMap
import Verif.Util.Sort
import Verif.TreeMath.Model

/-!
# Model of `beekem/src/keys.rs`, `beekem/src/secret_store.rs`, `beekem/src/encrypted.rs` (secrets)

Cryptography is symbolic. A secret key is a natural number, its public key is the same number
wrapped; the Diffie–Hellman symmetric key of two key pairs is the unordered pair of the two secrets;
a ciphertext is the symmetric key it was made with together with the plaintext, and opens exactly
under that key. Nothing in the model ever looks inside a public key or a ciphertext except through
`deriveSymmetricKey` and `tryDecrypt`, which is what the secrecy theorems rely on.
-/

namespace Verif.BeeKem

open Verif.TreeMath (TreeNodeIndex)

/-- `CgkaError` — beekem/src/error.rs:8-96 (the variants the modelled code can return), plus
`panic` for `expect`/`panic!`/`unreachable!`/out-of-bounds indexing/`u32` underflow, and `diverge`
for a loop that outlives the fuel the model gives it. -/
inductive CgkaError where
  | conversion
  | decryption
  | encryptedSecretNotFound
  | identifierNotFound
  | notInitialized
  | noRootKey
  | operationNotFound
  | outOfOrderOperation
  | shareKeyNotFound
  | secretKeyNotFound
  | removeLastMember
  | unexpectedKeyConflict
  | unknownPcsKey
  | unexpectedInitialOperation
  | unexpectedInviteOperation
  | panic (why : String)
  | diverge
deriving DecidableEq, Repr

/-- `Result<_, CgkaError>`. -/
abbrev Res := Except CgkaError

deriving instance DecidableEq for Except

/-- `ShareSecretKey` — keyhive_crypto/src/share_key.rs:92-94 (symbolic). -/
abbrev Sk := Nat

/-- `ShareKey` — keyhive_crypto/src/share_key.rs:13-15 (symbolic: the public key of `of`).
`Ord` (lines 68-78) is some total order on public keys; here the order of the numbers. -/
structure Pk where
  of : Sk
deriving DecidableEq, Repr

/-- `ShareSecretKey::share_key` — share_key.rs:102-106. -/
def shareKey (sk : Sk) : Pk := ⟨sk⟩

/-- `SymmetricKey` obtained by Diffie–Hellman (symbolic: the unordered pair of secrets). -/
structure SymKey where
  lo : Sk
  hi : Sk
deriving DecidableEq, Repr

/-- `ShareSecretKey::derive_symmetric_key` — share_key.rs:126-132. -/
def deriveSymmetricKey (sk : Sk) (pk : Pk) : SymKey := ⟨min sk pk.of, max sk pk.of⟩

/-- `EncryptedSecret<ShareSecretKey>` — beekem/src/encrypted.rs:74-87. `nonce` and `ciphertext`
are one symbolic box `(key, plain)`. -/
structure EncryptedSecret where
  key : SymKey
  plain : Sk
  pairedPk : Pk
deriving DecidableEq, Repr

/-- `SymmetricKey::try_decrypt` on a boxed secret — symbolic. -/
def tryDecrypt (key : SymKey) (e : EncryptedSecret) : Res Sk :=
  if e.key = key then .ok e.plain else .error .decryption

/-- `encrypt_secret` — encrypted.rs:130-143. The document id only enters the nonce, which is not
modelled; encryption itself never fails in the symbolic model. -/
def encryptSecret (secret : Sk) (sk : Sk) (pairedPk : Pk) : EncryptedSecret :=
  { key := deriveSymmetricKey sk pairedPk, plain := secret, pairedPk }

/-- `EncryptedSecret::try_encrypter_decrypt` — encrypted.rs:100-109. -/
def tryEncrypterDecrypt (e : EncryptedSecret) (encrypterSk : Sk) : Res Sk :=
  tryDecrypt (deriveSymmetricKey encrypterSk e.pairedPk) e

/-- `ShareKeyMap` — beekem/src/keys.rs:12-16. -/
abbrev ShareKeyMap := AMap Pk Sk

/-- `ShareKeyMap::try_decrypt_encryption` — keys.rs:35-48. -/
def tryDecryptEncryption (m : ShareKeyMap) (encrypterPk : Pk) (e : EncryptedSecret) : Res Sk :=
  match AMap.get m e.pairedPk with
  | none => .error .secretKeyNotFound
  | some sk => tryDecrypt (deriveSymmetricKey sk encrypterPk) e

/-- `ShareKeyMap::extend` / `merge` — keys.rs:60-62, 73-77: entries of `other` win. -/
def ShareKeyMap.extend (m other : ShareKeyMap) : ShareKeyMap :=
  other.foldl (fun acc p => AMap.insert acc p.1 p.2) m

/-- `NodeKey` with `ConflictKeys` inlined — keys.rs:86-107. -/
inductive NodeKey where
  | share (k : Pk)
  | conflict (first second : Pk) (more : List Pk)
deriving DecidableEq, Repr

/-- `NodeKey::keys` — keys.rs:144-149 (and `From<ConflictKeys> for Vec`, 135-141). -/
def NodeKey.keys : NodeKey → List Pk
  | .share k => [k]
  | .conflict a b more => [a, b] ++ more

/-- `NodeKey::contains_key` — keys.rs:159-164 (and `ConflictKeys::contains`, 113-115). -/
def NodeKey.containsKey : NodeKey → Pk → Bool
  | .share k, x => decide (x = k)
  | .conflict a b more, x => decide (a = x) || decide (b = x) || decide (x ∈ more)

/-- The slice match at the end of both branches of `NodeKey::merge` — keys.rs:183-200, 210-227,
and of `SecretStore::node_key` — secret_store.rs:49-70; `[]` is `unreachable!`. -/
def NodeKey.ofSlice : List Pk → Res NodeKey
  | [] => .error (.panic "no keys")
  | [k] => .ok (.share k)
  | a :: b :: more => .ok (.conflict a b more)

/-- `sort` on keys (keys.rs:181, 208). -/
def sortKeys (l : List Pk) : List Pk := isort (fun a b => decide (a.of ≤ b.of)) l

/-- `NodeKey::merge` — keys.rs:174-229. -/
def NodeKey.merge (self newKey : NodeKey) (removed : List Pk) : Res NodeKey :=
  match self with
  | .share key =>
    if key ∈ removed then .ok newKey
    else NodeKey.ofSlice (sortKeys (newKey.keys ++ [key]))
  | .conflict a b more =>
    NodeKey.ofSlice
      (sortKeys (newKey.keys ++ (NodeKey.conflict a b more).keys.filter (fun k => decide (k ∉ removed))))

/-- `SecretStoreVersion` — secret_store.rs:105-117. -/
structure SecretStoreVersion where
  pk : Pk
  sk : AMap TreeNodeIndex EncryptedSecret
  encrypterPk : Pk
deriving DecidableEq, Repr

/-- `SecretStore` — secret_store.rs:17-23. -/
structure SecretStore where
  versions : List SecretStoreVersion
deriving DecidableEq, Repr

namespace SecretStore

/-- `SecretStore::new` — secret_store.rs:26-39. -/
def new (pk encrypterPk : Pk) (sk : AMap TreeNodeIndex EncryptedSecret) : SecretStore :=
  { versions := [{ pk, sk, encrypterPk }] }

/-- `SecretStore::has_conflict` — secret_store.rs:41-43. -/
def hasConflict (s : SecretStore) : Bool := decide (s.versions.length > 1)

/-- `SecretStore::node_key` — secret_store.rs:45-72. -/
def nodeKey (s : SecretStore) : Res NodeKey := NodeKey.ofSlice (s.versions.map (·.pk))

/-- `SecretStore::remove_keys_from` — secret_store.rs:91-102 (the early return for an empty set
does not change the result). -/
def removeKeysFrom (s : SecretStore) (removed : List Pk) : SecretStore :=
  { versions := s.versions.filter (fun v => decide (v.pk ∉ removed)) }

/-- `SecretStore::merge` — secret_store.rs:86-89. -/
def merge (s other : SecretStore) (removed : List Pk) : SecretStore :=
  { versions := (s.removeKeysFrom removed).versions ++ other.versions }

end SecretStore

/-- The search for the lookup index in `SecretStoreVersion::decrypt_secret` —
secret_store.rs:126-139: the last seen index if present, else the most recent seen one that is.
`seen` is given most recent first. -/
def lookupIdx (sk : AMap TreeNodeIndex EncryptedSecret) (seenRev : List TreeNodeIndex) :
    Option TreeNodeIndex :=
  seenRev.find? (fun i => AMap.contains sk i)

/-- `SecretStoreVersion::decrypt_secret` — secret_store.rs:119-159. `child_sks` is only read. The
final conversion to 32 bytes always succeeds because the symbolic plaintext is a secret key. -/
def SecretStoreVersion.decryptSecret (v : SecretStoreVersion) (childKey : NodeKey)
    (sks : ShareKeyMap) (seen : List TreeNodeIndex) : Res Sk :=
  match lookupIdx v.sk seen.reverse with
  | none => .error .encryptedSecretNotFound
  | some idx =>
    match AMap.get v.sk idx with
    | none => .error .encryptedSecretNotFound
    | some e =>
      if childKey.containsKey v.encrypterPk then
        match AMap.get sks v.encrypterPk with
        | none => .error .secretKeyNotFound
        | some sk => tryEncrypterDecrypt e sk
      else tryDecryptEncryption sks v.encrypterPk e

/-- `SecretStore::decrypt_secret` — secret_store.rs:74-84; `versions[0]` panics when empty. -/
def SecretStore.decryptSecret (s : SecretStore) (childKey : NodeKey) (sks : ShareKeyMap)
    (seen : List TreeNodeIndex) : Res Sk :=
  if s.hasConflict then .error .unexpectedKeyConflict
  else match s.versions with
    | [] => .error (.panic "index out of bounds")
    | v :: _ => v.decryptSecret childKey sks seen

end Verif.BeeKem
