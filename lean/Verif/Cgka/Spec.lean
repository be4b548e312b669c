import Verif.Cgka.Model

/-!
# Specification vocabulary for group key agreement

Independent of the proofs: what a replica knows, what the causal order is, and which histories exist.
-/

namespace Verif.Cgka

open Verif.BeeKem

/-- The replica has recorded an operation with digest `h`. -/
def Knows (c : Cgka) (h : Nat) : Prop := ∃ op, AMap.get c.graph.ops h = some op

/-- A known operation with digest `x` names `p` among its predecessors. -/
def Names (c : Cgka) (p x : Nat) : Prop := ∃ op, AMap.get c.graph.ops x = some op ∧ p ∈ op.payload.preds

/-- `a` lies in the causal past of `b`. -/
inductive Before (c : Cgka) : Nat → Nat → Prop where
  | direct {p x : Nat} : Names c p x → Before c p x
  | more {p x y : Nat} : Before c p x → Names c x y → Before c p y

/-- Everything one replica can be asked to do. Every call brings its own signer. -/
inductive Cmd where
  | add (sign : Payload → Res SOp) (id : MemberId) (pk : Pk)
  | remove (sign : Payload → Res SOp) (id : MemberId)
  | update (sign : Payload → Res SOp) (g : BeeKem.Gen) (n : Nat) (newSk : Sk)
  | encrypt (sign : Payload → Res SOp) (g : BeeKem.Gen) (n : Nat) (contentRef predRefs : Nat)
  | decrypt (e : EncContent)
  | receive (op : SOp)

/-- The state after a call, successful or not. -/
def step (H : SOp → Nat) (c : Cgka) : Cmd → Cgka
  | .add sign id pk => (c.add H sign id pk).1
  | .remove sign id => (c.remove H sign id).1
  | .update sign g n newSk => (c.update H sign g n newSk).1
  | .encrypt sign g n r ps => (c.newAppSecretFor H sign g n r ps).1
  | .decrypt e => (c.decryptionKeyFor H e).1
  | .receive op => (c.mergeConcurrentOperation H op).1

/-- A signer signs what it is given (it may fail). -/
def HonestSigner (sign : Payload → Res SOp) : Prop := ∀ p o, sign p = .ok o → o.payload = p

/-- The signers of a call are honest. -/
def Cmd.Honest : Cmd → Prop
  | .add sign _ _ => HonestSigner sign
  | .remove sign _ => HonestSigner sign
  | .update sign _ _ _ => HonestSigner sign
  | .encrypt sign _ _ _ _ => HonestSigner sign
  | .decrypt _ => True
  | .receive _ => True

/-- An operation that starts a group: it adds its first member and names no predecessors. -/
def First (p : Payload) (id : MemberId) (pk : Pk) : Prop := ∃ n ps, p = .add id pk n [] ps

/-- States reachable from the creation of a group by any calls, in any order, with any operations received
from the network. -/
inductive Reach (H : SOp → Nat) : Cgka → Prop where
  | new {id : MemberId} {pk : Pk} {op : SOp} {c : Cgka} :
      First op.payload id pk → Cgka.newFromInitAdd H id pk op = .ok c → Reach H c
  | owner {c : Cgka} (me : MemberId) (sks : ShareKeyMap) : Reach H c → Reach H (c.withNewOwner me sks)
  | call {c : Cgka} {cmd : Cmd} : Reach H c → cmd.Honest → Reach H (step H c cmd)

/-- A signer that never fails and signs what it is given. -/
def GoodSigner (sign : Payload → Res SOp) : Prop := ∀ p, ∃ o, sign p = .ok o ∧ o.payload = p

/-- The signer of a call never fails. -/
def Cmd.Signs : Cmd → Prop
  | .add sign _ _ => GoodSigner sign
  | .remove sign _ => GoodSigner sign
  | .update sign _ _ _ => GoodSigner sign
  | .encrypt sign _ _ _ _ => GoodSigner sign
  | .decrypt _ => True
  | .receive _ => True

/-- Like `Reach`, with signers that never fail. -/
inductive ReachOk (H : SOp → Nat) : Cgka → Prop where
  | new {id : MemberId} {pk : Pk} {op : SOp} {c : Cgka} :
      First op.payload id pk → Cgka.newFromInitAdd H id pk op = .ok c → ReachOk H c
  | owner {c : Cgka} (me : MemberId) (sks : ShareKeyMap) : ReachOk H c → ReachOk H (c.withNewOwner me sks)
  | call {c : Cgka} {cmd : Cmd} : ReachOk H c → cmd.Signs → ReachOk H (step H c cmd)

/-- `c'` is a later state of the same replica as `c`. -/
inductive Later (H : SOp → Nat) (c : Cgka) : Cgka → Prop where
  | refl : Later H c c
  | owner {c' : Cgka} (me : MemberId) (sks : ShareKeyMap) : Later H c c' → Later H c (c'.withNewOwner me sks)
  | call {c' : Cgka} {cmd : Cmd} : Later H c c' → cmd.Honest → Later H c (step H c' cmd)

/-- There is only one operation without predecessors. -/
def OneRoot (c : Cgka) : Prop :=
  ∀ a b, Knows c a → Knows c b → (∀ p, ¬ Names c p a) → (∀ p, ¬ Names c p b) → a = b

/-- No operation names both an operation and something in its causal past (what the library's own calls
produce: they name the heads). -/
def Tidy (c : Cgka) : Prop := ∀ x p q, Names c p x → Names c q x → ¬ Before c p q

/-- The causal past of a set of operations, including the operations themselves. -/
def Past (c : Cgka) (heads : List Nat) (x : Nat) : Prop := x ∈ heads ∨ ∃ y ∈ heads, Before c x y

/-- Rebuilding the group from nothing, by applying everything known in replay order, gives the tree `t`. -/
def ReplaysTo (H : SOp → Nat) (c : Cgka) (t : BeeKem) : Prop :=
  ∃ epochs start r, c.graph.topsortGraph = .ok epochs ∧ c.rebuildStart H = .ok start ∧
    start.applyEpochs H epochs = .ok r ∧ r.tree = t

/-- From `c` to `c'` no operation was recorded, no head moved, and no group secret was forgotten. -/
def SameRecord (c c' : Cgka) : Prop :=
  c'.graph = c.graph ∧ ∀ x, AMap.get c.pcsKeys x ≠ none → AMap.get c'.pcsKeys x ≠ none

end Verif.Cgka
