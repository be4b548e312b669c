import Verif.Prekey.Registry

/-!
# Model of contact cards

`Active::generate_private_prekey` (`principal/active.rs`), `Individual::contact_card` (`principal/individual.rs`),
`Keyhive::contact_card` and `get_existing_contact_card` (`keyhive.rs`). A `ContactCard` is a prekey operation
(contact_card.rs:12); its `share_key` is the key the operation brings in (19-21).
-/

namespace Verif.Prekey

/-- Outcome of making a card: the operation on it, a failed signature, the panic of `pick_prekey`, or `pick_prekey` still
drawing. -/
inductive CardRes where
  | card (op : KeyOp)
  | signing
  | panic
  | running
deriving DecidableEq, Repr

/-- `Active::generate_private_prekey` — active.rs:157-171, as called by `Keyhive::contact_card` (keyhive.rs:318-328). `sk1`
and `sk2` are the secrets the two rotations draw. When the second signature fails the first rotation has happened. -/
def Active.makeCard (H : KeyOp → Nat) (pk : Secret → Key) (S : Body → Option KeyOp) (xof : Id → Id → Nat → Nat) (turns : Nat)
    (a : Active) (sk1 sk2 : Secret) : Active × CardRes :=
  match a.indie.pickPrekey xof a.indie.id turns with
  | .panic => (a, .panic)
  | .running => (a, .running)
  | .key k =>
    match a.rotatePrekey H pk S k sk1 with
    | .error _ => (a, .signing)
    | .ok (a1, op) =>
      match a1.rotatePrekey H pk S op.newKey sk2 with
      | .error _ => (a1, .signing)
      | .ok (a2, _) => (a2, .card op)

/-- `Individual::contact_card` — individual.rs:95-98, as called by `get_existing_contact_card` (keyhive.rs:330-339): the first
operation in the iteration order of the map, which `ord` gives. `none` is the `unwrap` of an empty map. -/
def Indie.existingCard (ord : List KeyOp → List KeyOp) (i : Indie) : Option KeyOp := (ord (AMap.values i.state)).head?

end Verif.Prekey
