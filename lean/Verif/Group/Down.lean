import Verif.Group.Model

/-! # Everything below the heads of a group, as lists -/

namespace Verif.Group

mutual
/-- The delegation and everything it refers to, directly or not (with repetitions): a bound for walks. -/
def Dlg.down : Dlg → List Op
  | .root i s a c rs x => .dlg (.root i s a c rs x) :: rs.down
  | .link i s a c p rs x => .dlg (.link i s a c p rs x) :: (p.down ++ rs.down)
/-- See `Dlg.down`. -/
def Rev.down : Rev → List Op
  | .root i s d x => .rev (.root i s d x) :: d.down
  | .via i s d p x => .rev (.via i s d p x) :: (d.down ++ p.down)
/-- See `Dlg.down`. -/
def Revs.down : Revs → List Op
  | .nil => []
  | .cons r rs => r.down ++ rs.down
end

/-- See `Dlg.down`. -/
def Op.down : Op → List Op
  | .dlg d => d.down
  | .rev r => r.down

/-- `collect_membership_heads` — membership_operation.rs:555-572. -/
def Group.headOps (g : Group) : List Op := (AMap.values g.dlgHeads).map Op.dlg ++ (AMap.values g.revHeads).map Op.rev

/-- The operations below the heads of one state of a group and not below those of another. -/
def Group.newOps (g g' : Group) : List Op :=
  (g'.headOps.flatMap Op.down).filter (fun o => decide (o ∉ g.headOps.flatMap Op.down))

/-- A revocation. -/
def Op.rev? : Op → Option Rev
  | .rev r => some r
  | .dlg _ => none

/-- A delegation. -/
def Op.dlg? : Op → Option Dlg
  | .dlg d => some d
  | .rev _ => none

end Verif.Group
