import Verif.Keyhive.Model
import Verif.Cgka.Spec

/-! # What it means that a device is as it was (C115) -/

namespace Verif.Keyhive

open Verif.Group Verif.Cgka Verif.BeeKem

/-- Nothing that can be seen of the device has changed from `k` to `k'`: neither who it is, nor its prekey secrets, groups, delegations, revocations and
pending events; it knows the same individuals, with the same prekeys; it has the same documents with the same members and heads, and of each the same
group-key operations and at least the same secrets. -/
structure Untouched (k k' : Keyhive) : Prop where
  me : k'.reg.me = k.reg.me
  secrets : k'.pairs = k.pairs
  groups : k'.groups = k.groups
  delegations : k'.dlgs = k.dlgs
  revocations : k'.revs = k.revs
  pending : k'.pending = k.pending
  people : ∀ i, k'.individual i = k.individual i
  agents : ∀ i, k'.getAgent i = k.getAgent i
  docs : ∀ i, match AMap.get k.docs i, AMap.get k'.docs i with
    | none, none => True
    | some d, some d' => d'.group = d.group ∧ d'.heads = d.heads ∧
      match d.cgka, d'.cgka with
      | none, none => True
      | some c, some c' => SameRecord c c' ∧ ∀ pk, AMap.get c.ownerSks pk ≠ none → AMap.get c'.ownerSks pk ≠ none
      | _, _ => False
    | _, _ => False

end Verif.Keyhive
