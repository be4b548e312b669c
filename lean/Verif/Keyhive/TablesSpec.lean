import Verif.Keyhive.Tables

/-! # Specification vocabulary for the tables of events -/

namespace Verif.Keyhive

open Verif.Group Verif.Cgka Verif.BeeKem

/-- An event about who is a member. -/
def Event.IsMembership : Event → Prop
  | .dlg _ => True
  | .rev _ => True
  | _ => False

/-- The digest of the signed operation in a membership event, and of the event itself for the others. -/
def Env.name (E : Env) : Event → Nat
  | .dlg d => E.hashDlg d
  | .rev r => E.hashRev r
  | .prekey o => E.hashEvent (.prekey o)
  | .cgka d o => E.hashEvent (.cgka d o)

/-- Different things do not have the same digest. -/
structure Env.Apart (E : Env) : Prop where
  event : Function.Injective E.hashEvent
  dlg : Function.Injective E.hashDlg
  rev : Function.Injective E.hashRev
  dlgRev : ∀ d r, E.hashDlg d ≠ E.hashRev r
  eventDlg : ∀ e d, E.hashEvent e ≠ E.hashDlg d
  eventRev : ∀ e r, E.hashEvent e ≠ E.hashRev r

/-- What is hashed, byte by byte — digest.rs:47-54 and bincode's format: a `StaticEvent` is the number of its variant in four bytes followed
by what it holds (static_event.rs:18-33), a signed operation just what it holds. Byte strings do not have the same hash. -/
structure Layout (E : Env) where
  hash : List Nat → Nat
  inj : Function.Injective hash
  dlgBytes : SDlg → List Nat
  revBytes : SRev → List Nat
  dlg : ∀ d, E.hashDlg d = hash (dlgBytes d)
  rev : ∀ r, E.hashRev r = hash (revBytes r)
  eventDlg : ∀ d, E.hashEvent (.dlg d) = hash ([3, 0, 0, 0] ++ dlgBytes d)
  eventRev : ∀ r, E.hashEvent (.rev r) = hash ([4, 0, 0, 0] ++ revBytes r)

/-- Starting at an agent, through its sources and their hashes, to an event. -/
def Leads (events : AMap Nat Event) (b : Bulk (List Nat)) (i : Id) (e : Event) : Prop :=
  ∃ sources, AMap.get b.index i = some sources ∧ ∃ s ∈ sources, ∃ hashes, AMap.get b.ops s = some hashes ∧
    ∃ n ∈ hashes, AMap.get events n = some e

end Verif.Keyhive
