import Verif.Util.AMap

/-!
# Model of the ciphertext store and of causal decryption

`keyhive_core/src/store/ciphertext.rs`, `store/ciphertext/memory.rs`, `crypto/envelope.rs` and
`Document::try_causal_decrypt_content` (`principal/document.rs`).

Content references, digests of key-agreement operations and symmetric keys are numbers. Locks are held for each call.
-/

namespace Verif.Cipher

/-- A content reference. -/
abbrev Ref := Nat

/-- A `Digest<Signed<CgkaOperation>>`. -/
abbrev OpHash := Nat

/-- A `SymmetricKey`. -/
abbrev Key := Nat

/-- `EncryptedContent` — beekem/src/encrypted.rs:22-38. `size` is `ciphertext.len()`; `body` stands for the bytes of the ciphertext,
the nonce, the key hash and the hash of the predecessors. -/
structure Ct where
  ref : Ref
  op : OpHash
  size : Nat
  body : Nat
deriving DecidableEq, Repr

/-- `MemoryCiphertextStoreInner` — memory.rs:26-34. -/
structure Store where
  opsToRefs : AMap OpHash (List Ref)
  refsToDigests : AMap Ref (List Nat)
  store : AMap Nat (Nat × Ct)
deriving DecidableEq, Repr

namespace Store

/-- `MemoryCiphertextStore::new` — memory.rs:38-44. -/
def new : Store := ⟨[], [], []⟩

/-- `max_by_key(|(size, _)| size)`: the last of the largest elements. -/
def largest : List (Nat × Ct) → Option (Nat × Ct)
  | [] => none
  | x :: xs =>
    match largest xs with
    | none => some x
    | some y => if x.1 ≤ y.1 then some y else some x

/-- `iter().map(|digest| store.get(digest)).collect::<Option<Vec<_>>>()`. -/
def collect (m : AMap Nat (Nat × Ct)) : List Nat → Option (List (Nat × Ct))
  | [] => some []
  | d :: ds =>
    match AMap.get m d, collect m ds with
    | some x, some xs => some (x :: xs)
    | _, _ => none

/-- `get_by_content_ref` — memory.rs:47-61. -/
def getByRef (s : Store) (r : Ref) : Option Ct :=
  match AMap.get s.refsToDigests r with
  | none => none
  | some ds =>
    match collect s.store ds with
    | none => none
    | some xs => (largest xs).map Prod.snd

/-- The ciphertexts filed under one reference — the inner loop of memory.rs:75-83. -/
def filed (s : Store) (r : Ref) : List Ct :=
  match AMap.get s.refsToDigests r with
  | none => []
  | some ds => ds.filterMap (fun d => (AMap.get s.store d).map Prod.snd)

/-- `get_by_pcs_update` — memory.rs:64-87. -/
def getByUpdate (s : Store) (o : OpHash) : List Ct :=
  match AMap.get s.opsToRefs o with
  | none => []
  | some rs => rs.flatMap s.filed

/-- `insert` — memory.rs:90-116. `H` is `Digest::hash`. -/
def insert (H : Ct → Nat) (s : Store) (c : Ct) : Store :=
  if AMap.contains s.store (H c) then { s with store := AMap.insert s.store (H c) (c.size, c) }
  else
    { store := AMap.insert s.store (H c) (c.size, c)
      opsToRefs := AMap.insert s.opsToRefs c.op (sinsert ((AMap.get s.opsToRefs c.op).getD []) c.ref)
      refsToDigests := AMap.insert s.refsToDigests c.ref (sinsert ((AMap.get s.refsToDigests c.ref).getD []) (H c)) }

/-- `remove` — memory.rs:129-165. The `?` in line 145 leaves the call early. -/
def remove (s : Store) (d : Nat) : Store × Option Ct :=
  match AMap.get s.store d with
  | none => (s, none)
  | some (_, c) =>
    let store := AMap.erase s.store d
    match AMap.get s.opsToRefs c.op with
    | none => ({ s with store }, none)
    | some refs =>
      let refs := sremove refs c.ref
      let opsToRefs := if refs.isEmpty then AMap.erase s.opsToRefs c.op else AMap.insert s.opsToRefs c.op refs
      match AMap.get s.refsToDigests c.ref with
      | none => ({ store, opsToRefs, refsToDigests := s.refsToDigests }, some c)
      | some ds =>
        let ds := sremove ds d
        let refsToDigests := if ds.isEmpty then AMap.erase s.refsToDigests c.ref else AMap.insert s.refsToDigests c.ref ds
        ({ store, opsToRefs, refsToDigests }, some c)

/-- `remove_all` — memory.rs:168-178. -/
def removeAll (s : Store) (r : Ref) : Store × Bool :=
  match AMap.get s.refsToDigests r with
  | none => (s, false)
  | some ds =>
    ({ s with refsToDigests := AMap.erase s.refsToDigests r, store := ds.foldl AMap.erase s.store }, true)

end Store

/-! ## Causal decryption -/

/-- `Envelope` — crypto/envelope.rs:69-80. -/
structure Envelope where
  plaintext : Nat
  ancestors : AMap Ref Key
deriving DecidableEq, Repr

/-- What `ciphertext.try_decrypt(key)` followed by `bincode::deserialize` gives. -/
inductive Opened where
  | failed
  | garbage
  | envelope (e : Envelope)
deriving DecidableEq, Repr

/-- `ErrorReason` — ciphertext.rs:353-370. -/
inductive Reason where
  | getCiphertext
  | markDecrypted
  | deserialization
  | decryption (k : Key)
deriving DecidableEq, Repr

/-- `CausalDecryptionState` — ciphertext.rs:246-251 — with the local variables `cannot` and `seen` of `try_causal_decrypt`. -/
structure Progress where
  complete : List (Ref × Nat)
  keys : AMap Ref Key
  next : AMap Ref Key
  cannot : AMap Ref Reason
  seen : List Ref
deriving DecidableEq, Repr

/-- The start of `try_causal_decrypt` — ciphertext.rs:170-172. -/
def Progress.new : Progress := ⟨[], [], [], [], []⟩

/-- The answer of `get_ciphertext`; `error` for stores that can fail. -/
inductive Got where
  | error
  | absent
  | found (c : Ct)
deriving DecidableEq, Repr

/-- The loop over the ancestors — ciphertext.rs:201-220. The stack's top is the head of the list. -/
def visitAncestors (get : Ref → Got) (self : Ref) : AMap Ref Key → Progress × List (Ct × Key) → Progress × List (Ct × Key)
  | [], acc => acc
  | (r, k) :: rest, (p, stack) =>
    visitAncestors get self rest
      (match get r with
       | .error => ({ p with seen := sremove p.seen self, cannot := AMap.insert p.cannot self .getCiphertext }, stack)
       | .absent => ({ p with next := AMap.insert p.next r k }, stack)
       | .found c => (p, (c, k) :: stack))

/-- One turn of the loop — ciphertext.rs:174-229. -/
def visit (get : Ref → Got) (opened : Ct → Key → Opened) (c : Ct) (k : Key) (p : Progress) (stack : List (Ct × Key)) :
    Progress × List (Ct × Key) :=
  if c.ref ∈ p.seen then (p, stack)
  else
    let p := { p with seen := sinsert p.seen c.ref, keys := AMap.insert p.keys c.ref k }
    match opened c k with
    | .failed =>
      ({ p with seen := sremove p.seen c.ref, cannot := AMap.insert p.cannot c.ref (.decryption k) }, stack)
    | .garbage =>
      ({ p with seen := sremove p.seen c.ref, cannot := AMap.insert p.cannot c.ref .deserialization }, stack)
    | .envelope e =>
      let acc := visitAncestors get c.ref e.ancestors (p, stack)
      ({ acc.1 with complete := acc.1.complete ++ [(c.ref, e.plaintext)] }, acc.2)

/-- The loop — ciphertext.rs:174-229 — for at most so many turns (`none`: still running). -/
def loop (get : Ref → Got) (opened : Ct → Key → Opened) : Nat → Progress → List (Ct × Key) → Option Progress
  | _, p, [] => some p
  | 0, _, _ :: _ => none
  | n + 1, p, (c, k) :: stack =>
    let acc := visit get opened c k p stack
    loop get opened n acc.1 acc.2

/-- `get_ciphertext` of the in-memory store — ciphertext.rs:311-316. -/
def Store.got (s : Store) (r : Ref) : Got :=
  match s.getByRef r with
  | none => .absent
  | some c => .found c

/-- `mark_decrypted` for everything decrypted, with the in-memory store, where it cannot fail — ciphertext.rs:231-235, 325-330. -/
def Store.markAll (s : Store) (done : List (Ref × Nat)) : Store := done.foldl (fun s p => (s.removeAll p.1).1) s

/-- `try_causal_decrypt` on the in-memory store — ciphertext.rs:161-243. The result is an error exactly when `cannot` is not empty;
both outcomes carry the progress. -/
def causalDecrypt (opened : Ct → Key → Opened) (n : Nat) (s : Store) (start : List (Ct × Key)) : Option (Store × Progress) :=
  (loop s.got opened n Progress.new start).map (fun p => (s.markAll p.complete, p))

/-- An ancestor of the entry point, if it is in the store, is put on the stack — document.rs:564-574. -/
def pushFound (s : Store) (stack : List (Ct × Key)) (p : Ref × Key) : List (Ct × Key) :=
  match s.getByRef p.1 with
  | some c => (c, p.2) :: stack
  | none => stack

/-- `Document::try_causal_decrypt_content` on the in-memory store, after the entry point has been decrypted to `entry`
— document.rs:548-576. The ancestors that are not in the store are put into `acc`, which is then dropped. -/
def docCausalDecrypt (opened : Ct → Key → Opened) (n : Nat) (s : Store) (entry : Envelope) : Option (Store × Progress) :=
  causalDecrypt opened n s (entry.ancestors.foldl (pushFound s) [])

end Verif.Cipher
