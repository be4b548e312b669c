/-!
# Model of the zero counting in `keyhive_crypto/src/digest.rs`

A digest is its list of bytes (32 of them). The counters are `u8`; additions that would overflow
panic in debug builds and wrap in release builds, modelled by `none`.
-/

namespace Verif.Digest

/-- `u8::count_zeros`: the number of zero bits among the 8 bits of a byte. -/
def countZeros (b : UInt8) : Nat := ((List.range 8).filter (fun i => !b.toNat.testBit i)).length

/-- `count + zeros` in `u8`; `none` on overflow. -/
def addU8 (a b : Nat) : Option Nat := if a + b < 256 then some (a + b) else none

/-- The loop of `Digest::trailing_zeros` — digest.rs:92-99, over the bytes in reverse order. -/
def trailingZerosLoop (count : Nat) : List UInt8 → Option Nat
  | [] => some count
  | b :: bs =>
    let zeros := countZeros b
    match addU8 count zeros with
    | none => none
    | some count => if zeros ≠ 8 then some count else trailingZerosLoop count bs

/-- `Digest::trailing_zeros` — digest.rs:89-102. -/
def trailingZeros (bytes : List UInt8) : Option Nat := trailingZerosLoop 0 bytes.reverse

/-- The loop of `Digest::trailing_zero_bytes` — digest.rs:117-123. -/
def trailingZeroBytesLoop (count : Nat) : List UInt8 → Option Nat
  | [] => some count
  | b :: bs =>
    if b = 0 then
      match addU8 count 1 with
      | none => none
      | some count => trailingZeroBytesLoop count bs
    else some count

/-- `Digest::trailing_zero_bytes` — digest.rs:114-126. -/
def trailingZeroBytes (bytes : List UInt8) : Option Nat := trailingZeroBytesLoop 0 bytes.reverse

end Verif.Digest
