import Verif.Prekey.Registry

/-! # Prekey calls that are given up half way

An asynchronous call of Rust can be dropped whenever it waits. `Active::rotate_prekey` and `Active::expand_prekeys` wait for the
random numbers and the signature, when nothing is changed yet, and for two locks, one for the individual that others see and
one for the secrets. The locks are those of clones of the active agent (active.rs:328-341) and of `Keyhive::individual`
(keyhive.rs:230-232), and so can be held by somebody else. The number `n` of the definitions below says how many of the two
sections with a lock have been run when the call is dropped; from two on the call is complete up to telling the listener. -/

namespace Verif.Prekey.Active

/-- `Active::rotate_prekey` — active.rs:178-219, dropped after `n` sections: the secret is stored first (active.rs:200-205),
the individual is changed next (active.rs:207-216). When signing fails nothing is changed. -/
def rotateUpTo (H : KeyOp → Nat) (pk : Secret → Key) (S : Body → Option KeyOp) (n : Nat) (a : Active) (old : Key)
    (sk : Secret) : Active :=
  match S (.rotate old (pk sk)) with
  | none => a
  | some op =>
    let a := if 1 ≤ n then { a with pairs := AMap.insert a.pairs (pk sk) sk } else a
    if 2 ≤ n then { a with indie := a.indie.rotate H op old (pk sk) } else a

/-- `Active::expand_prekeys` — active.rs:222-263, dropped after `n` sections: the individual is changed first
(active.rs:243-252), the secret is stored next (active.rs:254-259). -/
def expandUpTo (H : KeyOp → Nat) (pk : Secret → Key) (S : Body → Option KeyOp) (n : Nat) (a : Active) (sk : Secret) : Active :=
  match S (.add (pk sk)) with
  | none => a
  | some op =>
    let a := if 1 ≤ n then { a with indie := a.indie.expand H op (pk sk) } else a
    if 2 ≤ n then { a with pairs := AMap.insert a.pairs (pk sk) sk } else a

/-- `Active::generate_private_prekey` — active.rs:157-169, dropped after `n` of the four sections of its two rotations: the
prekey `picked` is replaced by a first new key, which is the one on the contact card, and that one by a second. When the first
signing fails the second rotation is not started. -/
def privateUpTo (H : KeyOp → Nat) (pk : Secret → Key) (S : Body → Option KeyOp) (n : Nat) (a : Active) (picked : Key)
    (sk₁ sk₂ : Secret) : Active :=
  match S (.rotate picked (pk sk₁)) with
  | none => a
  | some _ =>
    let b := a.rotateUpTo H pk S n picked sk₁
    if 2 ≤ n then b.rotateUpTo H pk S (n - 2) (pk sk₁) sk₂ else b

end Verif.Prekey.Active
