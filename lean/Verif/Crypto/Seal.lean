/-!
# Model of sealing in `keyhive_crypto/src/symmetric_key.rs` and `siv.rs`

The AEAD (XChaCha20-Poly1305 with the fixed associated data `SEPARATOR`) and the SIV hash are
parameters with the assumed behaviour stated as structure fields.
-/

namespace Verif.Seal

abbrev Bytes := List UInt8

/-- The primitives used by symmetric_key.rs:50-71 and siv.rs:31-42, and what is assumed of them. -/
structure Aead (Key : Type) where
  /-- `XChaCha20Poly1305::encrypt_in_place`; `none` models its error (message too long). -/
  encrypt : Key → Bytes → Bytes → Option Bytes
  /-- `XChaCha20Poly1305::decrypt_in_place`. -/
  decrypt : Key → Bytes → Bytes → Option Bytes
  /-- `Siv::new(key, plaintext, doc_id)`, 24 bytes. -/
  siv : Key → Bytes → Bytes → Bytes
  siv_len : ∀ k p d, (siv k p d).length = 24
  /-- An AEAD ciphertext decrypts, under the same key and nonce, to `p` exactly when it is the
  encryption of `p` (correctness and authenticity of an ideal AEAD). -/
  aead : ∀ k n c p, decrypt k n c = some p ↔ encrypt k n p = some c

/-- `SymmetricKey::try_seal` — symmetric_key.rs:75-87. -/
def trySeal {Key : Type} (A : Aead Key) (k : Key) (plaintext ad : Bytes) : Option Bytes :=
  let nonce := A.siv k plaintext ad
  match A.encrypt k nonce plaintext with
  | none => none
  | some buf => some (nonce ++ buf)

/-- `blob.split_first_chunk::<24>()`. -/
def splitFirst24 (blob : Bytes) : Option (Bytes × Bytes) :=
  if blob.length < 24 then none else some (blob.take 24, blob.drop 24)

/-- `SymmetricKey::try_open` — symmetric_key.rs:91-99. The nonce read from the blob is not
recomputed or checked. -/
def tryOpen {Key : Type} (A : Aead Key) (k : Key) (blob : Bytes) : Option Bytes :=
  match splitFirst24 blob with
  | none => none
  | some (nonce, ciphertext) => A.decrypt k nonce ciphertext

end Verif.Seal
