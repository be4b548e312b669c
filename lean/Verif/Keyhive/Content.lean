import Verif.Keyhive.Local

/-!
# Model of encrypting and decrypting the content of a document

Models `keyhive.rs:646-742` and `principal/document.rs:447-540`.

Simplifications: sealing is symbolic (`Verif.Cgka.EncContent`) and never fails (`EncryptError::EncryptionFailed` is left out).
`known_decryption_keys`, which is written in document.rs:481 and read nowhere, is left out. Listener calls are dropped. What
`try_causal_decrypt_content` does after the first decryption is the subject of `Verif.Cipher`.
-/

namespace Verif.Keyhive

open Verif.Group Verif.Cgka Verif.BeeKem

namespace Doc

/-- `try_encrypt_content_keyed` — document.rs:464-499. -/
def encryptContent (H : SOp → Nat) (sign : Payload → Res SOp) (g : BeeKem.Gen) (d : Doc) (contentRef predRefs plain : Nat) :
    Doc × Except Err (EncContent × Option SOp) :=
  match d.cgka with
  | none => (d, .error (.cgka .notInitialized))
  | some c =>
    match c.newAppSecretFor H sign g 0 contentRef predRefs with
    | (c', .error e) => ({ d with cgka := some c' }, .error (.cgka e))
    | (c', .ok (secret, op)) => ({ d with cgka := some c' }, .ok (secret.encrypt plain, op))

/-- `DecryptError`, and calls that do not return — document.rs:748-761 (`SivMismatch` and `IoErrorOnSivBuild` are never made). -/
inductive DecryptErr where
  | keyNotFound
  | decryptionFailed
  | fatal (e : CgkaError)
deriving DecidableEq, Repr

/-- `try_decrypt_content_keyed` — document.rs:511-540: every error of the key tree becomes `KeyNotFound`. -/
def decryptContent (H : SOp → Nat) (d : Doc) (e : EncContent) : Doc × Except DecryptErr (Nat × AppKey) :=
  match d.cgka with
  | none => (d, .error .keyNotFound)
  | some c =>
    match c.decryptionKeyFor H e with
    | (c', .error err) => ({ d with cgka := some c' }, .error (if Cgka.fatal err then .fatal err else .keyNotFound))
    | (c', .ok key) =>
      ({ d with cgka := some c' }, match e.openWith key with
        | none => .error .decryptionFailed
        | some plain => .ok (plain, key))

/-- `pcs_update` — document.rs:446-462. Returns the operation and the new secret of the leaf. -/
def pcsUpdate (H : SOp → Nat) (sign : Payload → Res SOp) (g : BeeKem.Gen) (d : Doc) : Doc × Except Err (SOp × Sk) :=
  match d.cgka with
  | none => (d, .error (.cgka .notInitialized))
  | some c =>
    match c.update H sign g 1 (g 0) with
    | (c', .error e) => ({ d with cgka := some c' }, .error (.cgka e))
    | (c', .ok (_, op)) => ({ d with cgka := some c' }, .ok (op, g 0))

end Doc

namespace Keyhive

/-- `try_encrypt_content` — keyhive.rs:646-690. The caller has the document at hand: for an unknown id nothing happens. -/
def encryptContent (E : Env) (L : Local) (k : Keyhive) (did : Id) (contentRef predRefs plain : Nat) :
    Step (EncContent × Option SOp) :=
  match AMap.get k.docs did with
  | none => (k, .error .unknownDocument)
  | some d =>
    let r := d.encryptContent (E.hashCgka did) (L.signCgka did) L.gen contentRef predRefs plain
    (k.setDoc did r.1, r.2)

/-- `try_decrypt_content` — keyhive.rs:699-714. -/
def decryptContent (E : Env) (k : Keyhive) (did : Id) (e : EncContent) : Keyhive × Except Doc.DecryptErr (Nat × AppKey) :=
  match AMap.get k.docs did with
  | none => (k, .error .keyNotFound)
  | some d =>
    let r := d.decryptContent (E.hashCgka did) e
    (k.setDoc did r.1, r.2)

/-- `force_pcs_update` — keyhive.rs:727-742. -/
def forcePcsUpdate (E : Env) (L : Local) (k : Keyhive) (did : Id) : Step (SOp × Sk) :=
  match AMap.get k.docs did with
  | none => (k, .error .unknownDocument)
  | some d =>
    let r := d.pcsUpdate (E.hashCgka did) (L.signCgka did) L.gen
    (k.setDoc did r.1, r.2)

end Keyhive

end Verif.Keyhive
