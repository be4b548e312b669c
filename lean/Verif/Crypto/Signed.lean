/-!
# Model of signed values and of printed identifiers

`keyhive_crypto/src/signed.rs`, `keyhive_crypto/src/hex.rs`, `idString` of `keyhive_wasm/src/js/keyhive.rs` and
`keyhive_core/src/debug_events/hash.rs`.
-/

namespace Verif.Signed

/-- `Signed<T>` — signed.rs:24-40. The bytes of the issuer's key and of the signature are numbers: arrays of one length compare like
the numbers they write. -/
structure Signed (T : Type) where
  payload : T
  issuer : Nat
  signature : Nat
  digestHash : Option Nat
deriving DecidableEq, Repr

namespace Signed

variable {T : Type}

/-- `PartialEq` — signed.rs:69-73. -/
def eq (a b : Signed T) : Bool := decide (a.issuer = b.issuer) && decide (a.signature = b.signature)

/-- What `Hash` feeds to the hasher — signed.rs:78-83. -/
def hashed (a : Signed T) : Nat × Nat := (a.issuer, a.signature)

/-- `Ord` — signed.rs:231-245; `PartialOrd` (signed.rs:208-229) is the same with the payload's own `partial_cmp`. -/
def cmp (pc : T → T → Ordering) (a b : Signed T) : Ordering :=
  match compare a.issuer b.issuer with
  | .eq =>
    match compare a.signature b.signature with
    | .eq => pc a.payload b.payload
    | o => o
  | o => o

/-- `digest` — signed.rs:132-139: the digest that was kept, or else the computed one, which then is kept. `H` hashes the serialised
value: the kept digest is not serialised. -/
def digest (H : T → Nat → Nat → Nat) (a : Signed T) : Nat × Signed T :=
  match a.digestHash with
  | some d => (d, a)
  | none => (H a.payload a.issuer a.signature, { a with digestHash := some (H a.payload a.issuer a.signature) })

/-- `new` — signed.rs:106-122. -/
def new (H : T → Nat → Nat → Nat) (payload : T) (issuer signature : Nat) : Signed T := (digest H ⟨payload, issuer, signature, none⟩).2

/-- What deserialising gives — signed.rs:24, 37-39: the kept digest is left out. -/
def read (payload : T) (issuer signature : Nat) : Signed T := ⟨payload, issuer, signature, none⟩

/-- `clone` and `dupe` — signed.rs:85-102, 247-261. -/
def clone (a : Signed T) : Signed T :=
  { payload := a.payload, issuer := a.issuer, signature := a.signature,
    digestHash := match a.digestHash with | some d => some d | none => none }

/-- `map` — signed.rs:176-178, for a payload of the same type. -/
def map (H : T → Nat → Nat → Nat) (f : T → T) (a : Signed T) : Signed T := new H (f a.payload) a.issuer a.signature

/-- `try_verify` — signed.rs:167-172. `bytes` serialises the payload, `verify` checks a signature. -/
def verifies {B : Type} (bytes : T → B) (verify : Nat → B → Nat → Bool) (a : Signed T) : Bool :=
  verify a.issuer (bytes a.payload) a.signature

end Signed

end Verif.Signed

namespace Verif.Hex

/-- A lower-case hexadecimal digit. -/
def digit (n : Nat) : Char := if n < 10 then Char.ofNat (48 + n) else Char.ofNat (87 + n)

/-- `{:x}` of a byte: no leading zeros. -/
def plain (b : UInt8) : List Char := if b.toNat < 16 then [digit b.toNat] else [digit (b.toNat / 16), digit (b.toNat % 16)]

/-- `{:02x}` of a byte: filled up with zeros to two characters. -/
def padded (b : UInt8) : List Char := List.replicate (2 - (plain b).length) '0' ++ plain b

/-- `bytes_to_hex_string` — hex.rs:22-30; `idString` — keyhive_wasm/src/js/keyhive.rs:107-121; and `{:#x}` through `bytes_as_hex`
— hex.rs:10-20. Strings are lists of characters. -/
def hexString (bs : List UInt8) : List Char := ['0', 'x'] ++ bs.flatMap padded

/-- `Hash::short_hex` of a hash without a nickname — debug_events/hash.rs:24-40. -/
def shortHex (bs : List UInt8) : List Char :=
  let hex := bs.flatMap padded
  if hex.length > 10 then hex.take 6 ++ ['.', '.', '.'] ++ hex.drop (hex.length - 4) else hex

end Verif.Hex
