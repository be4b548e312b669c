import Verif.Prekey.Card

/-! # What the contact card properties say, independent of the code -/

namespace Verif.Prekey

/-- How the active agent evolves on the only device that signs for it: it is generated, rotates and expands its prekeys, makes
contact cards and imports secrets. New keys are fresh: a rotation does not lead from a key to itself. -/
inductive Owner (H : KeyOp → Nat) (valid : KeyOp → Bool) (pk : Secret → Key) (S : Body → Option KeyOp) (me : Id) :
    Active → Prop
  | generate {a : Active} (init : Secret) (others : List Secret)
      (h : Active.generate H valid pk S me init others = .ok a) : Owner H valid pk S me a
  | rotate {a a' : Active} {op : KeyOp} (old : Key) (sk : Secret) (h : Owner H valid pk S me a) (hne : pk sk ≠ old)
      (hr : a.rotatePrekey H pk S old sk = .ok (a', op)) : Owner H valid pk S me a'
  | expand {a a' : Active} {op : KeyOp} (sk : Secret) (h : Owner H valid pk S me a)
      (hr : a.expandPrekeys H pk S sk = .ok (a', op)) : Owner H valid pk S me a'
  | card {a a' : Active} {res : CardRes} (xof : Id → Id → Nat → Nat) (turns : Nat) (sk1 sk2 : Secret)
      (h : Owner H valid pk S me a) (hf : pk sk1 ∉ a.indie.prekeys) (hne : pk sk1 ≠ pk sk2)
      (hr : a.makeCard H pk S xof turns sk1 sk2 = (a', res)) : Owner H valid pk S me a'
  | importSecrets {a : Active} (m : AMap Key Secret) (hm : ∀ k sk, (k, sk) ∈ m → pk sk = k)
      (h : Owner H valid pk S me a) : Owner H valid pk S me (a.importSecrets m)

/-- Anything a device does between two moments, on which it may also receive operations from other devices of its agent. -/
inductive Later (H : KeyOp → Nat) (valid : KeyOp → Bool) (pk : Secret → Key) (S : Body → Option KeyOp) (a : Active) :
    Active → Prop
  | now : Later H valid pk S a a
  | rotate {b b' : Active} {op : KeyOp} (old : Key) (sk : Secret) (h : Later H valid pk S a b)
      (hr : b.rotatePrekey H pk S old sk = .ok (b', op)) : Later H valid pk S a b'
  | expand {b b' : Active} {op : KeyOp} (sk : Secret) (h : Later H valid pk S a b)
      (hr : b.expandPrekeys H pk S sk = .ok (b', op)) : Later H valid pk S a b'
  | card {b b' : Active} {res : CardRes} (xof : Id → Id → Nat → Nat) (turns : Nat) (sk1 sk2 : Secret)
      (h : Later H valid pk S a b) (hr : b.makeCard H pk S xof turns sk1 sk2 = (b', res)) : Later H valid pk S a b'
  | receive {b : Active} {i : Indie} (op : KeyOp) (h : Later H valid pk S a b) (hr : b.indie.receive H valid op = .ok i) :
      Later H valid pk S a { b with indie := i }
  | importSecrets {b : Active} (m : AMap Key Secret) (hm : ∀ k sk, (k, sk) ∈ m → pk sk = k) (h : Later H valid pk S a b) :
      Later H valid pk S a (b.importSecrets m)

/-- The operations that the device gives to others: those in its own prekey history. -/
def Active.published (a : Active) : List KeyOp := AMap.values a.indie.state

/-- Whoever meets the agent through the card alone, whatever else they know of others, knows one key of the agent: the one on the
card; every invitation they make, to whatever document, is to that key. -/
def CardLeadsTo (H : KeyOp → Nat) (valid : KeyOp → Bool) (card : KeyOp) (k : Key) : Prop :=
  ∀ r : Registry, AMap.get r.indies card.issuer = none →
    ∃ i, AMap.get (r.receiveContactCard H valid card).1.indies card.issuer = some i ∧ i.id = card.issuer ∧ i.prekeys = [k] ∧
      ∀ xof doc turns, i.pickPrekey xof doc (turns + 1) = .key k

end Verif.Prekey
