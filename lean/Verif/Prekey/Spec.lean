import Verif.Prekey.Model

/-! # What the prekey properties say, independent of the code -/

namespace Verif.Prekey

/-- Some operation of the history brings in the key. -/
def Introduced (ops : List KeyOp) (k : Key) : Prop := ∃ o ∈ ops, o.body = .add k ∨ ∃ old, o.body = .rotate old k

/-- Some operation of the history retires the key. -/
def Retired (ops : List KeyOp) (k : Key) : Prop := ∃ o ∈ ops, ∃ new, o.body = .rotate k new

/-- The keys the owner of the history wants to be reached with. -/
def IsActive (ops : List KeyOp) (k : Key) : Prop := Introduced ops k ∧ ¬ Retired ops k

/-- The key does not occur in the history. -/
def Unused (ops : List KeyOp) (k : Key) : Prop := ¬ Introduced ops k ∧ ¬ Retired ops k

/-- How a replica of an individual comes about, with the operations it has taken in. `new` is the first contact; `receive` an
operation accepted from the network; `merge` the merge of another replica of the same individual; `rotate` and `expand` the
calls made by the owner, whose new keys are fresh random keys. -/
inductive History (H : KeyOp → Nat) (valid : KeyOp → Bool) : Indie → List KeyOp → Prop
  | new (op : KeyOp) : History H valid (Indie.new H op) [op]
  | receive {i i' : Indie} {l : List KeyOp} (op : KeyOp) (h : History H valid i l) (hr : i.receive H valid op = .ok i') :
      History H valid i' (op :: l)
  | merge {i f : Indie} {l l' : List KeyOp} (h : History H valid i l) (hf : History H valid f l') (hid : i.id = f.id) :
      History H valid (i.merge f) (l ++ l')
  | rotate {i : Indie} {l : List KeyOp} (op : KeyOp) (old new : Key) (h : History H valid i l)
      (hb : op.body = .rotate old new) (hi : op.issuer = i.id) (hfresh : Unused l new) (hne : old ≠ new) :
      History H valid (i.rotate H op old new) (op :: l)
  | expand {i : Indie} {l : List KeyOp} (op : KeyOp) (new : Key) (h : History H valid i l)
      (hb : op.body = .add new) (hi : op.issuer = i.id) (hfresh : Unused l new) :
      History H valid (i.expand H op new) (op :: l)

/-- Rotations never lead back: some ranking of keys grows with each rotation. -/
def Acyclic (ops : List KeyOp) : Prop :=
  ∃ rank : Key → Nat, ∀ o ∈ ops, ∀ old new, o.body = .rotate old new → rank old < rank new

/-- Each operation brings in a key of its own. -/
def OwnKeys (ops : List KeyOp) : Prop := ∀ o ∈ ops, ∀ o' ∈ ops, o.newKey = o'.newKey → o = o'

/-- Every rotated key was brought in by some operation. -/
def Grounded (ops : List KeyOp) : Prop := ∀ k, Retired ops k → Introduced ops k

/-- In `out`, each rotation comes after an operation that brought in the key it retires. -/
def InDependencyOrder (out : List KeyOp) : Prop :=
  ∀ pre o post, out = pre ++ o :: post → ∀ old new, o.body = .rotate old new → Introduced pre old

/-- The number with the given bytes, the lowest first. -/
def leValue : List Nat → Nat
  | [] => 0
  | b :: bs => b + 256 * leValue bs

/-- The second number has the eight bytes of the first in the opposite order. -/
def ReadsBackwards (n m : Nat) : Prop := ∃ bs : List Nat, bs.length = 8 ∧ (∀ b ∈ bs, b < 256) ∧ leValue bs = n ∧ leValue bs.reverse = m

end Verif.Prekey
