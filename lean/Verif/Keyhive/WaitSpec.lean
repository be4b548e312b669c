import Verif.Keyhive.StatsSpec
import Verif.Keyhive.KeptSpec

/-! # What the error of a refused event says about waiting (C117) -/

namespace Verif.Cgka

open Verif.BeeKem

/-- `CgkaError::is_missing_dependency` — beekem/src/error.rs:131-140. -/
def isMissingDependency : CgkaError → Bool
  | .notInitialized => true
  | .identifierNotFound => true
  | .unexpectedInitialOperation => true
  | .unexpectedInviteOperation => true
  | .outOfOrderOperation => true
  | _ => false

end Verif.Cgka

namespace Verif.Keyhive

open Verif.Group Verif.Cgka Verif.BeeKem

/-- `is_missing_dependency` of `ReceiveStaticEventError`, `ReceiveStaticDelegationError` and `ReceiveCgkaOpError` — keyhive.rs:2629-2635,
2672-2681, 2763-2770. -/
def Err.isMissingDependency : Err → Bool
  | .prekey _ => false
  | .cgka e => Cgka.isMissingDependency e
  | .group _ => false
  | .verification => false
  | .unknownDocument => false
  | .unknownInvitePrekey => false
  | .missingDelegation => true
  | .missingRevocation => true
  | .unknownAgent => true
  | .panic => false
  | .hang => false

/-- Receiving the event fails, and the error says that something it depends on has not been received. -/
def SaysWait (E : Env) (k : Keyhive) (e : Event) : Prop := ∃ err, (k.receive E e).2 = .error err ∧ err.isMissingDependency = true

/-- The event is signed by the one it names as its author. -/
def Env.Genuine (E : Env) : Event → Prop
  | .prekey op => E.validKey op = true
  | .cgka doc op => E.validCgka doc op = true
  | .dlg s => E.validDlg s = true
  | .rev s => E.validRev s = true

/-- The device knows an event with this digest already. -/
def OnRecord (E : Env) (k : Keyhive) : Event → Prop
  | .dlg s => AMap.get k.dlgs (E.hashDlg s) ≠ none
  | .rev s => AMap.get k.revs (E.hashRev s) ≠ none
  | .cgka doc op => ∃ d c, AMap.get k.docs doc = some d ∧ d.cgka = some c ∧ AMap.get c.graph.ops (E.hashCgka doc op) ≠ none
  | .prekey _ => False

/-- What the key operation builds on has been received: its predecessors, or, if it has none, at least one operation unless it is an
addition, with which a tree begins. -/
def Grounded (k : Keyhive) (doc : Id) (op : SOp) : Prop :=
  ∃ d, AMap.get k.docs doc = some d ∧
    match d.cgka with
    | some c => ∀ h ∈ op.payload.preds, AMap.get c.graph.ops h ≠ none
    | none => op.payload.preds = [] ∧ ∃ id pk i ps as, op.payload = .add id pk i ps as

/-- The operation adds the agent. -/
def AddsAgent (op : SOp) (id : Id) : Prop := ∃ pk i ps as, op.payload = .add id pk i ps as

end Verif.Keyhive
