import Verif.Keyhive.Spec

/-! # When devices agree: what the properties say -/

namespace Verif.Keyhive

open Verif.Group

/-- The operation is in the stores of the device. -/
def Keyhive.InStore (k : Keyhive) : Op → Prop
  | .dlg d => ∃ h, AMap.get k.dlgs h = some d
  | .rev r => ∃ h, AMap.get k.revs h = some r

/-- The stores and the groups of the device hold the same operations, each in the group it is about. -/
structure Settled (k : Keyhive) : Prop where
  held : ∀ o, k.InStore o → ∃ g, AMap.get k.world o.subject = some g ∧ g.Holds o
  stored : ∀ i g o, AMap.get k.world i = some g → g.Holds o → k.InStore o
  about : ∀ i g, AMap.get k.world i = some g → g.dlgHeads ≠ [] ∧ ∀ o ∈ g.heads, o.subject = i

/-- The signature of a membership operation as it travels. -/
def SMem.sig : SMem → Nat
  | .dlg s => s.sig
  | .rev s => s.sig

/-- Among these operations no two have the same signature, no two delegations say the same with different signers, and no two
revocations are of the same delegation. -/
structure Clear (S : SMem → Prop) : Prop where
  sigs : ∀ a b, S a → S b → a.sig = b.sig → a = b
  payloads : ∀ a b : SDlg, S (.dlg a) → S (.dlg b) →
    a.delegate = b.delegate → a.can = b.can → a.proof = b.proof → a.after = b.after → a.content = b.content → a = b
  once : ∀ a b : SRev, S (.rev a) → S (.rev b) → a.revoke = b.revoke → a = b

/-- Individuals are listed under their own ids. -/
def OwnIds (k : Keyhive) : Prop := ∀ i x, AMap.get k.reg.indies i = some x → x.id = i

/-- No delegation among the events is the first of a group whose id is known as an individual, or has prekeys among the events. -/
def Separate (k : Keyhive) (es : List Event) : Prop :=
  ∀ s, .dlg s ∈ es → s.proof = none → k.individual s.issuer = none ∧ ∀ op, .prekey op ∈ es → op.issuer ≠ s.issuer

/-- The delegations behind each member of the group or document `i` on this device, as they travel; `none` if the group is not
known. -/
def Keyhive.membership (E : Env) (k : Keyhive) (i : Id) : Option (Id → Option (List SDlg)) :=
  (AMap.get k.world i).map (fun g m => (AMap.get g.members m).map (List.map E.sdlg))

/-- The access each member of the group or document `i` has on this device. -/
def Keyhive.accessIn (k : Keyhive) (i : Id) : Option (Id → Option Access) :=
  (AMap.get k.world i).map (fun g m => (g.getCapability m).map Dlg.can)

end Verif.Keyhive
