import Verif.Keyhive.Query

/-! # Questions about access to a document, as the JavaScript interface asks them -/

namespace Verif.Keyhive

open Verif.Group Verif.Cgka Verif.BeeKem

/-- `matches!(agent, Agent::Individual(_, _) | Agent::Active(_, _))` — keyhive_wasm/src/js/keyhive.rs:697 and 720. -/
def isPerson (a : Agent) : Bool :=
  match a.kind with
  | .individual => true
  | .active => true
  | _ => false

/-- The two filters — keyhive_wasm/src/js/keyhive.rs:692-704 and 716-727. -/
def people (did : Id) (m : AMap Id (Agent × Access)) : List (Agent × Access) :=
  (m.filter (fun p => decide (p.1 ≠ did))).filterMap (fun p => if isPerson p.2.1 then some p.2 else none)

namespace Keyhive

/-- `docMemberCapabilities` — keyhive_wasm/src/js/keyhive.rs:687-708. -/
def docMemberCapabilities (k : Keyhive) (did : Id) : List (Agent × Access) :=
  match AMap.get k.docs did with
  | some doc => people did (k.listed doc.group)
  | none => []

/-- `revokedMembersForDoc` — keyhive_wasm/src/js/keyhive.rs:711-730, document.rs:136-138. -/
def revokedMembersForDoc (k : Keyhive) (did : Id) : List (Agent × Access) :=
  match AMap.get k.docs did with
  | some doc => people did doc.group.revokedMembers
  | none => []

/-- `accessForDoc` — keyhive_wasm/src/js/keyhive.rs:733-742. -/
def accessForDoc (k : Keyhive) (i did : Id) : Option Access :=
  match AMap.get k.docs did with
  | some doc => (AMap.get (k.listed doc.group) i).map (·.2)
  | none => none

/-- `bestAccessForDoc` — keyhive_wasm/src/js/keyhive.rs:748-765. -/
def bestAccessForDoc (k : Keyhive) (i did : Id) : Option Access :=
  match AMap.get k.docs did with
  | none => none
  | some doc =>
    let members := k.listed doc.group
    match (AMap.get members i).map (·.2), (AMap.get members k.reg.pub).map (·.2) with
    | some d, some p => some (Access.max d p)
    | some d, none => some d
    | none, some p => some p
    | none, none => none

end Keyhive

end Verif.Keyhive
