import Verif.BeeKem.Tree

/-!
# Specifications for the key-tree properties (C04–C10, C58)

Everything here is stated with the functions of the model in `Tree.lean` and plain lists; no proof
helper is used.
-/

namespace Verif.BeeKem.Spec

open Verif.TreeMath Verif.BeeKem

/-! ## Histories of one tree -/

/-- An operation on the tree, as the group layer issues them. -/
inductive TreeOp where
  /-- `Cgka::add` (cgka.rs:239-280) / the `Add` arm of `apply_operation` (cgka.rs:417-436). -/
  | add (id : MemberId) (pk : NodeKey)
  /-- `Cgka::remove` (cgka.rs:283-312) / the `Remove` arm. -/
  | remove (id : MemberId)
  /-- A local key update: `Cgka::update` (cgka.rs:316-371). -/
  | update (g : BeeKem.Gen) (c : Nat) (id : MemberId) (pk : Pk) (sks : ShareKeyMap)
  /-- Installing a received path: the `Update` arm. -/
  | install (pc : PathChange)

/-- Run one operation. `Cgka::add` does nothing for a present member (cgka.rs:247-249); `Cgka::remove`
does nothing for an absent one (cgka.rs:288-290). -/
def TreeOp.run (t : BeeKem) : TreeOp → Res BeeKem
  | .add id pk => if t.containsId id then .ok t else do let (t', _) ← t.pushLeaf id pk; pure t'
  | .remove id => if t.containsId id then do let (t', _, _) ← t.removeId id; pure t' else .ok t
  | .update g c id pk sks => do let (t', _) ← t.encryptPath g c id pk sks; pure t'
  | .install pc => t.applyPath pc

/-- The path change refers to positions inside the tree and carries at least one key per node. Every
path change made by `encrypt_path` on a tree of this size is like that; one made by a stranger need
not be. -/
def PathInTree (t : BeeKem) (pc : PathChange) : Prop :=
  pc.leafIdx < t.leaves.length ∧ ∀ q ∈ pc.path, q.1 < t.innerNodes.length ∧ q.2.versions ≠ []

/-- The operation may be issued in `t`. -/
def TreeOp.Ok (t : BeeKem) : TreeOp → Prop
  | .install pc => PathInTree t pc
  | _ => True

/-- The abstract effect of an operation on the member list. -/
def TreeOp.members (ms : List MemberId) : TreeOp → List MemberId
  | .add id _ => if id ∈ ms then ms else id :: ms
  | .remove id => ms.filter (· ≠ id)
  | .update .. => ms
  | .install .. => ms

/-- `History t ms`: some sequence of successful operations leads from a new tree to `t`, and its
abstract effect is the member list `ms`. -/
inductive History : BeeKem → List MemberId → Prop
  | start {id : MemberId} {pk : Pk} {t : BeeKem} : BeeKem.new id pk = .ok t → History t [id]
  | step {t t' : BeeKem} {ms : List MemberId} (op : TreeOp) :
      History t ms → op.Ok t → op.run t = .ok t' → History t' (op.members ms)

/-- Leaf slot `i` is occupied by `l`. -/
def LeafAt (t : BeeKem) (i : Nat) (l : LeafNode) : Prop := t.leaves[i]? = some (some l)

/-! ## Secrets -/

/-- Secret `s` belongs to a key at a leaf or at an inner node of `t`. -/
def Present (t : BeeKem) (s : Sk) : Prop :=
  (∃ i l, LeafAt t i l ∧ (⟨s⟩ : Pk) ∈ l.pk.keys) ∨
    ∃ (j : Nat) (st : SecretStore), t.innerNodes[j]? = some (some st) ∧ ∃ v ∈ st.versions, v.pk = ⟨s⟩

/-- The root secret of `t`: the root node has exactly one key, with secret `s`. -/
def RootSecret (t : BeeKem) (s : Sk) : Prop :=
  ∃ (j : Nat) (st : SecretStore) (v : SecretStoreVersion), root t.treeSize = .inner j ∧ t.innerNodes[j]? = some (some st) ∧ st.versions = [v] ∧
    v.pk = ⟨s⟩

/-- Secret `s` belongs to a key of an inner node on the direct path of leaf `i`. -/
def OnPath (t : BeeKem) (i : Nat) (s : Sk) : Prop :=
  ∃ p, directPath (.leaf i) t.treeSize = some p ∧
    ∃ j ∈ p, ∃ st : SecretStore, t.innerNodes[j]? = some (some st) ∧ ∃ v ∈ st.versions, v.pk = ⟨s⟩

/-- Every ciphertext in a path change. -/
def PathChange.ciphers (pc : PathChange) : List EncryptedSecret :=
  pc.path.flatMap (fun q => q.2.versions.flatMap (fun v => v.sk.map (·.2)))

/-- What can be computed (Dolev–Yao) from the secrets in `K` and the public ciphertexts `pub`: a
ciphertext made under the Diffie–Hellman key of two key pairs opens for whoever has one of the two
secrets, the public keys being public. -/
inductive Derivable (K : Sk → Prop) (pub : List EncryptedSecret) : Sk → Prop
  | known {s : Sk} : K s → Derivable K pub s
  | opened {c : EncryptedSecret} {a : Sk} {b : Pk} : c ∈ pub → Derivable K pub a →
      c.key = deriveSymmetricKey a b → Derivable K pub c.plain

/-- A run of one group without concurrency: the tree, the CSPRNG position, everything ever published
and every tree there has been (newest first). -/
structure World where
  tree : BeeKem
  rng : Nat
  pub : List EncryptedSecret
  trees : List BeeKem

/-- The secret was a key of the tree at some time. -/
def World.Held (w : World) (s : Sk) : Prop := ∃ t ∈ w.trees, Present t s

/-- Secret `s` is not an output of the tree CSPRNG (leaf secrets are generated elsewhere). -/
def NotGen (g : BeeKem.Gen) (s : Sk) : Prop := ∀ n, s ≠ g n

/-- A group is created. -/
inductive Start (g : BeeKem.Gen) : World → Prop
  | mk {id : MemberId} {sk : Sk} {t : BeeKem} {rng : Nat} : NotGen g sk →
      BeeKem.new id ⟨sk⟩ = .ok t → Start g { tree := t, rng, pub := [], trees := [t] }

/-- One operation of a run without concurrency. -/
inductive Step (g : BeeKem.Gen) : World → World → Prop
  /-- A new member joins with a leaf key (prekey) whose secret is `sk`. -/
  | add {w : World} {id : MemberId} {sk : Sk} {t : BeeKem} {i : Nat} :
      w.tree.containsId id = false → NotGen g sk → w.tree.pushLeaf id (.share ⟨sk⟩) = .ok (t, i) →
      Step g w { w with tree := t, trees := t :: w.trees }
  | remove {w : World} {id : MemberId} {t : BeeKem} {i : Nat} {removed : List Pk} :
      w.tree.removeId id = .ok (t, i, removed) → Step g w { w with tree := t, trees := t :: w.trees }
  /-- Member `id` performs a key update with leaf secret `sk`; its path change becomes public. -/
  | update {w : World} {id : MemberId} {sk : Sk} {sks : ShareKeyMap} {t : BeeKem} {sks' : ShareKeyMap}
      {rng : Nat} {r : Sk} {pc : PathChange} :
      NotGen g sk → AMap.get sks ⟨sk⟩ = some sk →
      w.tree.encryptPath g w.rng id ⟨sk⟩ sks = .ok (t, sks', rng, r, pc) →
      Step g w { tree := t, rng, pub := PathChange.ciphers pc ++ w.pub, trees := t :: w.trees }

/-- Reflexive-transitive closure of `Step`. -/
inductive Steps (g : BeeKem.Gen) : World → World → Prop
  | refl {w : World} : Steps g w w
  | tail {w w' w'' : World} : Steps g w w' → Step g w' w'' → Steps g w w''

/-- Reachable worlds. -/
inductive Reach (g : BeeKem.Gen) : World → Prop
  | start {w : World} : Start g w → Reach g w
  | step {w w' : World} : Reach g w → Step g w w' → Reach g w'

/-- The CSPRNG never repeats an output. -/
def Fresh (g : BeeKem.Gen) : Prop := ∀ m n, g m = g n → m = n

/-- A key map that was filled honestly: each public key is stored with its own secret. -/
def HonestKeys (m : ShareKeyMap) : Prop := ∀ pk sk, AMap.get m pk = some sk → pk = shareKey sk

/-! ## Merging concurrent changes to one node -/

/-- Merge a sequence of incoming changes (new key, keys declared removed) into a node key. -/
def mergeAll (start : NodeKey) : List (NodeKey × List Pk) → Res NodeKey
  | [] => .ok start
  | (k, removed) :: rest => do
    let s ← start.merge k removed
    mergeAll s rest

/-- The same for the secret store of an inner node. -/
def mergeStores (start : SecretStore) : List (SecretStore × List Pk) → SecretStore
  | [] => start
  | (s, removed) :: rest => mergeStores (start.merge s removed) rest

/-- No change of the list declares a key removed that a change of the list introduces: the changes are
concurrent, none has seen another. -/
def Concurrent (newKeys : α → List Pk) (cs : List (α × List Pk)) : Prop :=
  ∀ c ∈ cs, ∀ d ∈ cs, ∀ k ∈ newKeys c.1, k ∉ d.2

/-- The keys of a secret store. -/
def storeKeys (s : SecretStore) : List Pk := s.versions.map (·.pk)

/-- The leaves of the tree, left to right, that carry identity `id`. -/
def leavesOf (t : BeeKem) (id : MemberId) : List LeafNode :=
  t.leaves.filterMap (fun o => o.filter (fun l => decide (l.id = id)))

end Verif.BeeKem.Spec
