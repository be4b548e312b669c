import Verif.Keyhive.Transact
import Verif.Keyhive.AnswerSpec

/-! # What the properties of transactions say -/

namespace Verif.Keyhive

/-- The call returned without an error. -/
def Answer.Fine : Answer → Prop
  | .received r => ∃ a, r = .ok a
  | .ingested r => ∃ a, r = some (.ok a)
  | .card r => ∃ a, r = .ok a
  | .made r => ∃ a, r = .ok a
  | .added r => ∃ a, r = .ok a
  | .revoked r => ∃ a, r = .ok a
  | .encrypted r => ∃ a, r = .ok a
  | .decrypted r => ∃ a, r = .ok a
  | .updated r => ∃ a, r = .ok a

/-- Made one after the other on this device, all the calls return without an error. -/
def AllFine (E : Env) (k : Keyhive) (calls : List Call) : Prop :=
  ∀ pre c post, calls = pre ++ c :: post → (c.answer E (k.afterCalls E pre)).Fine

end Verif.Keyhive
