import Verif.Keyhive.Content

/-! # Writing content and being handed its key; writing an archive -/

namespace Verif.Keyhive

open Verif.Group Verif.Cgka Verif.BeeKem

namespace Doc

/-- `try_encrypt_content_keyed` — document.rs:465-495, with the key it returns. Simplified as `Doc.encryptContent`. -/
def encryptContentKeyed (H : SOp → Nat) (sign : Payload → Res SOp) (g : BeeKem.Gen) (d : Doc) (contentRef predRefs plain : Nat) :
    Doc × Except Err ((EncContent × Option SOp) × AppKey) :=
  match d.cgka with
  | none => (d, .error (.cgka .notInitialized))
  | some c =>
    match c.newAppSecretFor H sign g 0 contentRef predRefs with
    | (c', .error e) => ({ d with cgka := some c' }, .error (.cgka e))
    | (c', .ok (secret, op)) => ({ d with cgka := some c' }, .ok ((secret.encrypt plain, op), secret.key))

end Doc

namespace Keyhive

/-- `try_encrypt_content_keyed` — keyhive.rs:663-688; `tryEncryptKeyed` — keyhive_wasm/src/js/keyhive.rs:203-224. -/
def encryptContentKeyed (E : Env) (L : Local) (k : Keyhive) (did : Id) (contentRef predRefs plain : Nat) :
    Step ((EncContent × Option SOp) × AppKey) :=
  match AMap.get k.docs did with
  | none => (k, .error .unknownDocument)
  | some d =>
    let r := d.encryptContentKeyed (E.hashCgka did) (L.signCgka did) L.gen contentRef predRefs plain
    (k.setDoc did r.1, r.2)

/-- `tryEncryptArchive` — keyhive_wasm/src/js/keyhive.rs:226-246, which calls `try_encrypt_content`. -/
def encryptArchive (E : Env) (L : Local) (k : Keyhive) (did : Id) (contentRef predRefs plain : Nat) : Step (EncContent × Option SOp) :=
  k.encryptContent E L did contentRef predRefs plain

end Keyhive

end Verif.Keyhive
