import Verif.Cgka.Digest

/-!
# A concrete history, for the examples next to the theorems

Alice (1) creates a group, adds Bob (2) and Carol (3) and updates. Then Alice and Bob act concurrently. Every operation is
signed with a distinct signature; the digest of an operation listed in `ops` is its position in the list.
-/

namespace Verif.Cgka.Sample

open Verif.BeeKem Verif.Cgka

/-- A signer that never fails. -/
def sign (n : Nat) : Payload → Res SOp := fun p => .ok ⟨p, 0, n⟩

theorem sign_good (n : Nat) : GoodSigner (sign n) := fun _ => ⟨_, rfl, rfl⟩

/-- Fresh randomness. -/
def gen (n : Nat) : Sk := 1000 + n

/-- One node on an update path. -/
def node (i : Nat) (pk enc : Sk) (sks : AMap TreeMath.TreeNodeIndex EncryptedSecret) : Nat × SecretStore :=
  (i, ⟨[⟨⟨pk⟩, sks, ⟨enc⟩⟩]⟩)

/-- A sealed secret. -/
def box (lo hi plain paired : Sk) : EncryptedSecret := ⟨⟨lo, hi⟩, plain, ⟨paired⟩⟩

def o0 : SOp := ⟨.initAdd 1 ⟨11⟩, 0, 0⟩
def o1 : SOp := ⟨.add 2 ⟨22⟩ 1 [0] [0], 0, 1⟩
def o2 : SOp := ⟨.add 3 ⟨33⟩ 2 [1] [1], 0, 2⟩
/-- Alice's first update. -/
def o3 : SOp := ⟨.update 1
  { leafId := 1, leafIdx := 0, leafPk := .share ⟨12⟩
    path := [node 0 1000 12 [(.leaf 1, box 12 22 1000 22), (.leaf 0, box 12 22 1000 22)],
             node 1 1001 1000 [(.leaf 2, box 33 1000 1001 33), (.inner 0, box 33 1000 1001 33)]]
    removedKeys := [⟨11⟩] } [2], 0, 3⟩
/-- Alice removes Carol. -/
def o4 : SOp := ⟨.remove 3 2 [⟨1001⟩] [3], 0, 4⟩
/-- Bob removes Carol, too. -/
def o5 : SOp := ⟨.remove 3 2 [⟨1001⟩] [3], 0, 5⟩
/-- Bob adds Dave (4). -/
def o6 : SOp := ⟨.add 4 ⟨44⟩ 3 [3] [2], 0, 6⟩
/-- Alice's second update, concurrent with `o5` and `o6`. -/
def o7 : SOp := ⟨.update 1
  { leafId := 1, leafIdx := 0, leafPk := .share ⟨13⟩
    path := [node 0 1010 13 [(.leaf 1, box 13 22 1010 22), (.leaf 0, box 13 22 1010 22)],
             node 1 1011 1010 [(.leaf 2, box 33 1010 1011 33), (.inner 0, box 33 1010 1011 33)]]
    removedKeys := [⟨12⟩, ⟨1000⟩, ⟨1001⟩] } [3], 0, 7⟩
/-- A second operation without predecessors, made by a stranger. -/
def o8 : SOp := ⟨.update 1 ⟨1, 0, .share ⟨9⟩, [], []⟩ [], 7, 8⟩

def ops : List SOp := [o0, o1, o2, o3, o4, o5, o6, o7, o8]

/-- The digest. -/
noncomputable def H : SOp → Nat := tableH ops

theorem H_inj : Function.Injective H := tableH_injective ops

/-- The state right after creation. -/
def start : Cgka :=
  { ownerId := 1, ownerSks := [], tree := { nextLeafIdx := 1, leaves := [some ⟨1, .share ⟨11⟩⟩, none], innerNodes := [none], treeSize := 3, idToLeafIdx := [(1, 0)] },
    graph := { ops := [(0, o0)], preds := [(0, [])], heads := [0], addHeads := [0] }, pending := false, pcsKeys := [],
    pcsKeyOps := [], originalMember := (1, ⟨11⟩), initAddOp := o0 }

theorem start_new : Cgka.newFromInitAdd H 1 ⟨11⟩ o0 = .ok start := by decide +kernel

/-- Alice's replica. -/
noncomputable def alice0 : Cgka := start.withNewOwner 1 [(⟨11⟩, 11)]
noncomputable def alice1 : Cgka := step H alice0 (.add (sign 1) 2 ⟨22⟩)
noncomputable def alice2 : Cgka := step H alice1 (.add (sign 2) 3 ⟨33⟩)
noncomputable def alice3 : Cgka := step H alice2 (.update (sign 3) gen 0 12)
noncomputable def aliceRemoved : Cgka := step H alice3 (.remove (sign 4) 3)
noncomputable def alice7 : Cgka := step H alice3 (.update (sign 7) gen 10 13)

/-- Bob's replica. -/
noncomputable def bob0 : Cgka := start.withNewOwner 2 [(⟨22⟩, 22)]
noncomputable def bob1 : Cgka := step H bob0 (.receive o1)
noncomputable def bob2 : Cgka := step H bob1 (.receive o2)
noncomputable def bob3 : Cgka := step H bob2 (.receive o3)
noncomputable def bob6 : Cgka := step H bob3 (.add (sign 6) 4 ⟨44⟩)

theorem alice3_ok : ReachOk H alice3 :=
  .call (.call (.call (.owner 1 [(⟨11⟩, 11)] (.new ⟨0, [], rfl⟩ start_new)) (sign_good 1)) (sign_good 2)) (sign_good 3)

theorem bob3_ok : ReachOk H bob3 :=
  .call (.call (.call (.owner 2 [(⟨22⟩, 22)] (.new ⟨0, [], rfl⟩ start_new)) trivial) trivial) trivial

theorem alice3_ops : alice3.graph.ops = [(3, o3), (2, o2), (1, o1), (0, o0)] := by decide +kernel

/-- Both sides of the concurrent update and add. -/
noncomputable def aliceMerged : Cgka := step H alice7 (.receive o6)
noncomputable def bobMerged : Cgka := step H bob6 (.receive o7)

theorem alice7_ok : ReachOk H alice7 := .call alice3_ok (sign_good 7)
theorem bob6_ok : ReachOk H bob6 := .call bob3_ok (sign_good 6)
theorem aliceMerged_ok : ReachOk H aliceMerged := .call alice7_ok trivial
theorem bobMerged_ok : ReachOk H bobMerged := .call bob6_ok trivial

theorem aliceMerged_ops : aliceMerged.graph.ops = [(6, o6), (7, o7), (3, o3), (2, o2), (1, o1), (0, o0)] := by decide +kernel
theorem bobMerged_ops : bobMerged.graph.ops = [(7, o7), (6, o6), (3, o3), (2, o2), (1, o1), (0, o0)] := by decide +kernel

/-- Alice after learning of Bob's concurrent removal of Carol. -/
noncomputable def aliceConflict : Cgka := step H aliceRemoved (.receive o5)
theorem aliceConflict_ok : ReachOk H aliceConflict := .call (.call alice3_ok (sign_good 4)) trivial

/-- Alice after receiving an operation without predecessors. -/
noncomputable def aliceTwoRoots : Cgka := step H alice3 (.receive o8)
theorem aliceTwoRoots_ok : ReachOk H aliceTwoRoots := .call alice3_ok trivial

/-- A signer that is unavailable. -/
def noSign : Payload → Res SOp := fun _ => .error .conversion
theorem noSign_honest : HonestSigner noSign := by intro p o h; simp [noSign] at h

/-- Alice's second operation is on record and their first update failed for want of a signature. -/
noncomputable def aliceUnsigned : Cgka := step H alice2 (.update noSign gen 0 12)

/-- Carol's replica, after Alice's two updates. -/
noncomputable def carol7 : Cgka :=
  [o1, o2, o3, o7].foldl (fun c o => step H c (.receive o)) (start.withNewOwner 3 [(⟨33⟩, 33)])

/-! ## Checking graphs -/

theorem oneRoot_of {c : Cgka} (r : Nat) (h : ∀ p ∈ c.graph.ops, p.2.payload.preds = [] → p.1 = r) : OneRoot c := by
  have key : ∀ a, Knows c a → (∀ p, ¬ Names c p a) → a = r := by
    rintro a ⟨o, ho⟩ hn
    refine h (a, o) (AMap.mem_of_get ho) ?_
    cases hp : o.payload.preds with
    | nil => rfl
    | cons x l => exact absurd ⟨o, ho, by rw [hp]; simp⟩ (hn x)
  intro a b ha hb na nb
  rw [key a ha na, key b hb nb]

theorem tidy_of {c : Cgka} (d : Nat → Nat) (h1 : ∀ q ∈ c.graph.ops, ∀ p ∈ q.2.payload.preds, d p < d q.1)
    (h2 : ∀ q ∈ c.graph.ops, ∀ p ∈ q.2.payload.preds, ∀ p' ∈ q.2.payload.preds, d p = d p') : Tidy c := by
  have hb : ∀ a b, Before c a b → d a < d b := by
    intro a b hab
    induction hab with
    | direct hn => obtain ⟨o, ho, hp⟩ := hn; exact h1 _ (AMap.mem_of_get ho) _ hp
    | more _ hn ih => obtain ⟨o, ho, hp⟩ := hn; exact Nat.lt_trans ih (h1 _ (AMap.mem_of_get ho) _ hp)
  rintro x p q ⟨o, ho, hp⟩ ⟨o', ho', hq⟩ hpq
  rw [ho] at ho'
  cases ho'
  have := h2 _ (AMap.mem_of_get ho) p hp q hq
  have := hb p q hpq
  omega

theorem knows_of {c : Cgka} (x : Nat) : Knows c x ↔ AMap.contains c.graph.ops x = true := by
  rw [AMap.contains_iff, AMap.mem_keys_iff]
  unfold Knows
  cases AMap.get c.graph.ops x <;> simp

theorem same_of {a b : Cgka} (h1 : ∀ x ∈ AMap.keys a.graph.ops, x ∈ AMap.keys b.graph.ops)
    (h2 : ∀ x ∈ AMap.keys b.graph.ops, x ∈ AMap.keys a.graph.ops) (x : Nat) : Knows a x ↔ Knows b x := by
  rw [knows_of, knows_of, AMap.contains_iff, AMap.contains_iff]
  exact ⟨h1 x, h2 x⟩

theorem ok_of {α : Type} {r : Res α} (h : (match r with | .ok _ => true | .error _ => false) = true) : ∃ a, r = .ok a := by
  cases r with
  | ok a => exact ⟨a, rfl⟩
  | error e => simp at h

theorem error_of {α : Type} {r : Res α} (h : (match r with | .ok _ => true | .error _ => false) = false) : ∃ e, r = .error e := by
  cases r with
  | ok a => simp at h
  | error e => exact ⟨e, rfl⟩

/-- `a` is not before `b` if some set that contains `b` and is closed under predecessors does not contain `a`. -/
theorem not_before_of {c : Cgka} {a b : Nat} (f : Nat → Bool) (hb : f b = true)
    (hc : ∀ q ∈ c.graph.ops, f q.1 = true → ∀ p ∈ q.2.payload.preds, f p = true) (ha : f a = false) : ¬ Before c a b := by
  have key : ∀ x y, Before c x y → f y = true → f x = true := by
    intro x y h
    induction h with
    | direct hn => intro hy; obtain ⟨o, ho, hp⟩ := hn; exact hc _ (AMap.mem_of_get ho) hy _ hp
    | more _ hn ih => intro hy; obtain ⟨o, ho, hp⟩ := hn; exact ih (hc _ (AMap.mem_of_get ho) hy _ hp)
  intro h
  have := key a b h hb
  rw [ha] at this
  simp at this

theorem bob2_ok : ReachOk H bob2 :=
  .call (.call (.owner 2 [(⟨22⟩, 22)] (.new ⟨0, [], rfl⟩ start_new)) trivial) trivial

theorem good_honest {sign : Payload → Res SOp} (h : GoodSigner sign) : HonestSigner sign := by
  intro p o ho
  obtain ⟨o', h1, h2⟩ := h p
  rw [ho] at h1; cases h1
  exact h2

/-- Bob after Alice's two updates. -/
noncomputable def bob7 : Cgka := step H bob3 (.receive o7)
theorem bob7_ok : ReachOk H bob7 := .call bob3_ok trivial

theorem alice2_ok : ReachOk H alice2 :=
  .call (.call (.owner 1 [(⟨11⟩, 11)] (.new ⟨0, [], rfl⟩ start_new)) (sign_good 1)) (sign_good 2)
theorem alice2_reach : Reach H alice2 :=
  .call (.call (.owner 1 [(⟨11⟩, 11)] (.new ⟨0, [], rfl⟩ start_new)) (good_honest (sign_good 1))) (good_honest (sign_good 2))
theorem aliceMerged_reach : Reach H aliceMerged :=
  .call (.call (.call alice2_reach (good_honest (sign_good 3))) (good_honest (sign_good 7))) trivial

theorem aliceMerged_oneRoot : OneRoot aliceMerged := oneRoot_of 0 (by decide +kernel)
theorem aliceMerged_tidy : Tidy aliceMerged := tidy_of id (by decide +kernel) (by decide +kernel)

end Verif.Cgka.Sample
