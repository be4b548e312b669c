import Verif.Group.Op
import Verif.Group.Topsort

/-!
# Model of `MembershipOperation::reverse_topsort` (membership_operation.rs:211-435)

`H : Op → Nat` is `MembershipOperation::digest` (membership_operation.rs:128-133).
-/

namespace Verif.Group

/-- `all_ops` without the parent digests (recomputed by `Op.after`), and `revoked_dependencies` — the tables filled by the
exploration, membership_operation.rs:231-256. -/
structure Table where
  ops : AMap Nat Op
  revokedBy : AMap Nat Nat

namespace Table

/-- `adjacencies`' edges out of an operation, in insertion order: its parents, then, for a delegation whose proof is
revoked, that revocation — membership_operation.rs:352-379. `successors_of` holds the same list. -/
def succs (H : Op → Nat) (t : Table) (op : Op) : List Nat :=
  (op.after.map H).filter (AMap.contains t.ops) ++
    match op with
    | .rev _ => []
    | .dlg d =>
      match d.proof with
      | none => []
      | some p =>
        match AMap.get t.revokedBy p.sig with
        | none => []
        | some rd => if AMap.contains t.ops rd then [rd] else []

/-- `successors_of.get(digest)`, empty when absent. -/
def succsOf (H : Op → Nat) (t : Table) (d : Nat) : List Nat :=
  match AMap.get t.ops d with
  | none => []
  | some op => t.succs H op

/-- `op.is_revocation()` for the operation with this digest. -/
def isRev (t : Table) (d : Nat) : Bool :=
  match AMap.get t.ops d with
  | none => false
  | some op => op.isRevocation

/-- `distance_to_root.get(d).copied().unwrap_or(1)` — membership_operation.rs:334-338, 403-404. -/
def distance (t : Table) (d : Nat) : Nat :=
  match AMap.get t.ops d with
  | none => 1
  | some op => op.distance

/-- The order of concurrent revocations — membership_operation.rs:402-406. -/
def revLe (t : Table) (a b : Nat) : Bool :=
  decide (t.distance a < t.distance b) || (decide (t.distance a = t.distance b) && decide (a ≤ b))

/-- Iteration order of the `BTreeMap` `all_ops`. -/
def sorted (t : Table) : List (Nat × Op) := isort (fun a b => decide (a.1 ≤ b.1)) t.ops

end Table

/-- Record one operation — membership_operation.rs:282-286. -/
def Table.record (H : Op → Nat) (t : Table) (op : Op) : Table :=
  { ops := AMap.insert t.ops (H op) op
    revokedBy :=
      match op with
      | .dlg _ => t.revokedBy
      | .rev r => AMap.insert t.revokedBy r.revoke.sig (H op) }

/-- The `while let Some(op) = explore.pop()` loop — membership_operation.rs:269-287. The stack's top is the head of the
list. The first argument bounds the number of turns. -/
def explore (H : Op → Nat) : Nat → List Op → Table → Table
  | 0, _, t => t
  | _ + 1, [], t => t
  | n + 1, op :: stack, t =>
    if AMap.contains t.ops (H op) then explore H n stack t
    else explore H n (op.after.reverse ++ stack) (t.record H op)

/-- Sum of the weights of the operations of a stack: enough turns for `explore`. -/
def stackWeight (l : List Op) : Nat := (l.map Op.weight).sum

/-- The exploration from the heads — membership_operation.rs:258-287. `delegation_heads.values()` and
`revocation_heads.values()` iterate in an unspecified order, here the order of the lists. -/
def collect (H : Op → Nat) (dlgHeads : List Dlg) (revHeads : List Rev) : Table :=
  let stack := (dlgHeads.map Op.dlg ++ revHeads.map Op.rev).reverse
  explore H (stackWeight stack + 1) stack ⟨[], []⟩

/-- Add the edges from one operation — membership_operation.rs:353-378. -/
def addEdges (d : Nat) (ts : Topsort) (succs : List Nat) : Topsort := succs.foldl (fun ts s => ts.addDependency d s) ts

/-- `adjacencies` — membership_operation.rs:345-379. -/
def adjacencies (H : Op → Nat) (t : Table) : Topsort :=
  t.sorted.foldl (fun ts p => addEdges p.1 (ts.addNode p.1) (t.succs H p.2)) .new

/-- `for window in remaining.windows(2)` — membership_operation.rs:412-416. -/
def chain (ts : Topsort) : List Nat → Topsort
  | a :: b :: rest => chain (ts.addDependency b a) (b :: rest)
  | _ => ts

/-- Put the remaining revocations of a batch back — membership_operation.rs:411-430. -/
def requeue (H : Op → Nat) (t : Table) (ts : Topsort) (remaining : List Nat) : Topsort :=
  let ts := chain ts remaining
  let ts := match remaining with
    | [r] => ts.addNode r
    | _ => ts
  remaining.foldl (fun ts r => addEdges r ts (t.succsOf H r)) ts

/-- The main loop — membership_operation.rs:381-432. -/
def drain (H : Op → Nat) (t : Table) : Nat → Topsort → List Nat → List Nat
  | 0, _, out => out
  | n + 1, ts, out =>
    if ts.isEmpty then out else
    let batch := ts.popFrontier.1
    let ts := ts.popFrontier.2
    if batch.isEmpty then out else   -- cycle guard
    let others := isort (fun a b => decide (a ≤ b)) (batch.filter (fun d => !t.isRev d))
    match isort t.revLe (batch.filter t.isRev) with
    | [] => drain H t n ts (out ++ others)
    | [r] => drain H t n ts (out ++ others ++ [r])
    | r :: remaining => drain H t n (requeue H t ts remaining) (out ++ others ++ [r])

/-- The digests in the order of `dependencies` — membership_operation.rs:381-434. Every turn of the loop emits an
operation, so the number of operations bounds the number of turns. -/
def order (H : Op → Nat) (t : Table) : List Nat := drain H t t.ops.length (adjacencies H t) []

/-- `MembershipOperation::reverse_topsort` — membership_operation.rs:223-435: later operations first. -/
def reverseTopsort (H : Op → Nat) (dlgHeads : List Dlg) (revHeads : List Rev) : List Op :=
  let t := collect H dlgHeads revHeads
  (order H t).filterMap (AMap.get t.ops)

end Verif.Group
