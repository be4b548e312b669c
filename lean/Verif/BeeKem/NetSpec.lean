import Verif.BeeKem.Spec

/-!
# Specification: key updates made at the same time (C06)

Every member has a replica of the key tree. Members update their keys whenever they like, on top of the updates they have
seen; each update travels to the other replicas in any order in which no update comes before one its author had seen. Membership
changes while nobody updates. Stated with the functions of the model in `Tree.lean` only.
-/

namespace Verif.BeeKem.Spec

open Verif.TreeMath Verif.BeeKem

/-- A published update: who made it, the numbers of the updates its author had seen, the published path and the root secret that
its author obtained. -/
structure Sent where
  who : MemberId
  past : List Nat
  pc : PathChange
  secret : Sk

/-- One member's tree and the numbers of the updates in it. -/
structure Replica where
  tree : BeeKem
  seen : List Nat

/-- All replicas, and all updates published so far, the oldest first. -/
structure Net where
  at_ : MemberId → Replica
  sent : List Sent

/-- Replica `id` becomes `r`. -/
def Net.put (n : Net) (id : MemberId) (r : Replica) : MemberId → Replica := fun j => if j = id then r else n.at_ j

/-- What members do while nobody is added or removed. `F k` are the secrets drawn for update number `k`: the first one becomes the
secret of the member's leaf. -/
inductive Net.Step (F : Nat → Nat → Sk) : Net → Net → Prop
  /-- Member `id` updates their key in their own replica and publishes the path. -/
  | update {n : Net} {id : MemberId} {c : Nat} {sks : ShareKeyMap} {t : BeeKem} {sks' : ShareKeyMap} {rng : Nat} {r : Sk}
      {pc : PathChange} :
      AMap.get sks ⟨F n.sent.length 0⟩ = some (F n.sent.length 0) →
      (n.at_ id).tree.encryptPath (fun i => F n.sent.length (i + 1)) c id ⟨F n.sent.length 0⟩ sks = .ok (t, sks', rng, r, pc) →
      Net.Step F n { at_ := n.put id ⟨t, n.sent.length :: (n.at_ id).seen⟩, sent := n.sent ++ [⟨id, (n.at_ id).seen, pc, r⟩] }
  /-- Update number `k` arrives at the replica of `id`, which has all that its author had seen. -/
  | deliver {n : Net} {id : MemberId} {k : Nat} {u : Sent} {t : BeeKem} :
      n.sent[k]? = some u → k ∉ (n.at_ id).seen → (∀ j ∈ u.past, j ∈ (n.at_ id).seen) →
      (n.at_ id).tree.applyPath u.pc = .ok t →
      Net.Step F n { n with at_ := n.put id ⟨t, k :: (n.at_ id).seen⟩ }

/-- Everybody starts with the tree `t`. -/
inductive Net.Run (F : Nat → Nat → Sk) (t : BeeKem) : Net → Prop
  | start : Net.Run F t { at_ := fun _ => ⟨t, []⟩, sent := [] }
  | step {n n' : Net} : Net.Run F t n → Net.Step F n n' → Net.Run F t n'

/-- No secret is drawn twice, and none of the drawn ones belongs to a key of `t`. -/
def FreshFor (F : Nat → Nat → Sk) (t : BeeKem) : Prop :=
  (∀ k i k' i', F k i = F k' i' → k = k' ∧ i = i') ∧ ∀ k i, ¬ Present t (F k i)

/-- Trees of a group in which members update their keys at the same time as others, and members are added or removed while nobody
does: the tree that then goes on may be any replica's. -/
inductive Grounded : BeeKem → Prop
  | new {id : MemberId} {sk : Sk} {t : BeeKem} : BeeKem.new id ⟨sk⟩ = .ok t → Grounded t
  | add {t t' : BeeKem} {id : MemberId} {sk : Sk} {i : Nat} : Grounded t → t.containsId id = false →
      t.pushLeaf id (.share ⟨sk⟩) = .ok (t', i) → Grounded t'
  | remove {t t' : BeeKem} {id : MemberId} {i : Nat} {removed : List Pk} : Grounded t →
      t.removeId id = .ok (t', i, removed) → Grounded t'
  | updates {t : BeeKem} {F : Nat → Nat → Sk} {n : Net} (id : MemberId) : Grounded t → FreshFor F t → Net.Run F t n →
      Grounded (n.at_ id).tree

/-- The two replicas have the same updates. -/
def SameSeen (a b : Replica) : Prop := ∀ k, k ∈ a.seen ↔ k ∈ b.seen

/-- Every member that holds the secret of its leaf key obtains `r` from the tree. -/
def AllObtain (t : BeeKem) (r : Sk) : Prop :=
  ∀ i l, LeafAt t i l → ∃ a, l.pk = .share ⟨a⟩ ∧
    ∀ keys, HonestKeys keys → AMap.get keys ⟨a⟩ = some a → ∃ keys', t.decryptTreeSecret l.id keys = .ok (keys', r)

end Verif.BeeKem.Spec
