import Verif.Keyhive.Query

/-! # Asking a group or document for the revocations of an agent -/

namespace Verif.Keyhive

open Verif.Group

namespace Keyhive

/-- `Membered::get_agent_revocations` — membered.rs:158-168, document.rs:350-355, group.rs:403-414. The store asked is the one of the device:
`Group::new`, `Group::generate` and `GroupState::dummy_from_archive` are given `self.revocations.dupe()` (keyhive.rs:252-261). `[]` where there is
no such group or document. The order is that of a hash set. -/
def agentRevocations (k : Keyhive) (i : Id) (a : Agent) : List Rev :=
  match AMap.get k.world i with
  | some _ => k.revsAbout a
  | none => []

end Keyhive

end Verif.Keyhive
