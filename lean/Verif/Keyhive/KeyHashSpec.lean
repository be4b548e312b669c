import Verif.Keyhive.KeyHash
import Verif.Keyhive.FleetSpec

/-! # What C118 says -/

namespace Verif.Keyhive

open Verif.Group Verif.Cgka Verif.BeeKem

/-- The answer of the device. -/
def KeyHash (k : Keyhive) (did : Id) (h : PcsHash) : Prop := (k.tryPcsKeyHash did).2 = .ok (some h)

/-- The device answers that it has no group key. -/
def NoKeyHash (k : Keyhive) (did : Id) : Prop := (k.tryPcsKeyHash did).2 = .ok none

/-- Of the key operations the device has for the document, this is the last: it comes after all others. -/
def LastKeyOp (E : Env) (k : Keyhive) (did : Id) (op : SOp) : Prop :=
  ∃ d c, AMap.get k.docs did = some d ∧ d.cgka = some c ∧ AMap.get c.graph.ops (E.hashCgka did op) = some op ∧
    ∀ x, Knows c x → x = E.hashCgka did op ∨ Before c x (E.hashCgka did op)

/-- The two devices have the same key operations for the document. -/
def SameKeyOps (E : Env) (k w : Keyhive) (did : Id) : Prop := ∀ op, HasKeyOp E k did op ↔ HasKeyOp E w did op

end Verif.Keyhive
