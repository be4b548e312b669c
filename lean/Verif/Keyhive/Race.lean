import Verif.Keyhive.Model

/-! # Receiving two delegations at the same time

`receive_delegation` looks for the subject of a delegation among the groups, documents and individuals, and releases these locks before it makes a new
group for an unknown subject (keyhive.rs:1623-1672). Another call can run in between. -/

namespace Verif.Keyhive

open Verif.Group

/-- The first half of `receive_delegation` — keyhive.rs:1593-1647 — for a delegation that is new and genuine, names what is known, and is about an unknown
subject: the delegation that is put together. The second half is `Keyhive.adopt` (1648-1672). -/
def Keyhive.halfway (E : Env) (k : Keyhive) (s : SDlg) : Option Dlg :=
  if AMap.contains k.dlgs (E.hashDlg s) then none
  else if !E.validDlg s then none
  else match k.toDlg s with
    | .error _ => none
    | .ok d =>
      if AMap.contains k.groups d.subject || AMap.contains k.docs d.subject || (k.individual d.subject).isSome then none else some d

end Verif.Keyhive
