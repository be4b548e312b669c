import Verif.Cgka.Model

/-! # Adding several members in one call -/

namespace Verif.Cgka

open Verif.BeeKem

namespace Cgka

/-- `Cgka::add_multiple` — beekem/src/cgka.rs:269-279. The call takes a non-empty list. -/
def addMultiple (H : SOp → Nat) (sign : Payload → Res SOp) : Cgka → List (MemberId × Pk) → Cgka × Res (List SOp)
  | c, [] => (c, .ok [])
  | c, m :: ms =>
    match c.add H sign m.1 m.2 with
    | (c1, .error e) => (c1, .error e)
    | (c1, .ok o) =>
      match addMultiple H sign c1 ms with
      | (c2, .error e) => (c2, .error e)
      | (c2, .ok os) => (c2, .ok (o.toList ++ os))

end Cgka

end Verif.Cgka
