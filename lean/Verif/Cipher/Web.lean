import Verif.Cipher.Model

/-!
# Model of what has become readable, and of the store kept in a browser

`Event::now_decryptable` (`keyhive_core/src/event.rs`) and the web-storage half of `keyhive_wasm/src/js/ciphertext_store.rs`.
-/

namespace Verif.Cipher

/-- What `now_decryptable` looks at in an `Event` — event.rs:35-50: the digest of a key-agreement operation and the document it names;
or that the event is something else. -/
inductive NewEvent where
  | cgka (op : OpHash) (doc : Nat)
  | other
deriving DecidableEq, Repr

/-- `Event::now_decryptable` — event.rs:61-81, from the table `acc` on. `byUpdate` is `get_ciphertext_by_pcs_update` of the store;
`none` is an error, which ends the call. -/
def nowDecryptable (byUpdate : OpHash → Option (List Ct)) : List NewEvent → AMap Nat (List Ct) → Option (AMap Nat (List Ct))
  | [], acc => some acc
  | .other :: es, acc => nowDecryptable byUpdate es acc
  | .cgka o d :: es, acc =>
    match byUpdate o with
    | none => none
    | some more => nowDecryptable byUpdate es (AMap.insert acc d ((AMap.get acc d).getD [] ++ more))

/-- `get_ciphertext_by_pcs_update` of the in-memory store, which cannot fail — ciphertext.rs:318-323. -/
def Store.byUpdate (s : Store) (o : OpHash) : Option (List Ct) := some (s.getByUpdate o)

/-- A text kept in a `web_sys::Storage`: the base64 of a serialised ciphertext, or anything else. The two errors for the latter
(`ConvertFromBase64Error`, `DeserailizationError`) are not told apart. -/
inductive Item where
  | junk
  | ct (c : Ct)
deriving DecidableEq, Repr

/-- A `web_sys::Storage`: texts under names, names being numbers. Its own calls are taken to succeed (no `RetrievalError`,
`CannotStoreSize`, `JsRemoveCiphertextError`), and `key(i)` to name the `i`th text. -/
abbrev Web := AMap Nat Item

namespace Web

/-- `get_ciphertext` — ciphertext_store.rs:60-75. `name` is `to_base64` of a content reference. -/
def got (name : Ref → Nat) (w : Web) (r : Ref) : Got :=
  match AMap.get w (name r) with
  | none => .absent
  | some .junk => .error
  | some (.ct c) => .found c

/-- The loop of `get_ciphertext_by_pcs_update` over the names — ciphertext_store.rs:98-118. -/
def readAll (w : Web) : List Nat → Option (List Ct)
  | [] => some []
  | n :: ns =>
    match AMap.get w n with
    | none => readAll w ns
    | some .junk => none
    | some (.ct c) => (readAll w ns).map (c :: ·)

/-- `get_ciphertext_by_pcs_update` — ciphertext_store.rs:95-121. The update asked about is not looked at. -/
def byUpdate (w : Web) (_ : OpHash) : Option (List Ct) := readAll w (AMap.keys w)

/-- `mark_decrypted` — ciphertext_store.rs:136-140. -/
def mark (name : Ref → Nat) (w : Web) (r : Ref) : Web := AMap.erase w (name r)

/-- `mark_decrypted` for everything decrypted — ciphertext.rs:231-235. -/
def markAll (name : Ref → Nat) (w : Web) (done : List (Ref × Nat)) : Web := done.foldl (fun w p => mark name w p.1) w

/-- `try_causal_decrypt` on the store kept in a browser — ciphertext.rs:161-243. -/
def causalDecrypt (name : Ref → Nat) (opened : Ct → Key → Opened) (n : Nat) (w : Web) (start : List (Ct × Key)) :
    Option (Web × Progress) :=
  (loop (w.got name) opened n Progress.new start).map (fun p => (w.markAll name p.complete, p))

end Web

end Verif.Cipher
