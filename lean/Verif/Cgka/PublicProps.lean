import Verif.Cgka.PublicLemmas

/-!
# Properties: content in groups of which the public is a member (C111)

The vocabulary is in `Verif.Cgka.Spec`, `Verif.Cgka.TrustSpec` and `Verif.Cgka.TogetherSpec`.
-/

namespace Verif.Cgka

open Verif.BeeKem Relation

namespace PublicSample

open Sample (gen node box)

/-- Alice starts the group, -/
def v0 : SOp := ⟨.initAdd 1 ⟨11⟩, 1, 1500⟩
/-- makes it public -/
def v1 : SOp := ⟨.add MemberId.pub ⟨0⟩ 1 [0] [0], 1, 1501⟩
/-- and updates their keys when they write. -/
def v2 : SOp := ⟨.update 1
  { leafId := 1, leafIdx := 0, leafPk := .share ⟨1000⟩
    path := [node 0 1001 1000 [(.leaf 1, box 0 1000 1001 0), (.leaf 0, box 0 1000 1001 0)]]
    removedKeys := [⟨11⟩] } [1], 1, 1502⟩

noncomputable def H : SOp → Nat := tableH [v0, v1, v2]
theorem H_inj : Function.Injective H := tableH_injective _

/-- Alice signs. -/
def sign (n : Nat) (p : Payload) : Res SOp := .ok ⟨p, 1, n⟩
theorem sign_good (n : Nat) : GoodSigner (sign n) := fun p => ⟨_, rfl, rfl⟩

/-- The first operation gives this. -/
def start : Cgka where
  ownerId := 1
  ownerSks := []
  tree := { nextLeafIdx := 1, leaves := [some ⟨1, .share ⟨11⟩⟩, none], innerNodes := [none], treeSize := 3, idToLeafIdx := [(1, 0)] }
  graph := { ops := [(0, v0)], preds := [(0, [])], heads := [0], addHeads := [0] }
  pending := false
  pcsKeys := []
  pcsKeyOps := []
  originalMember := (1, ⟨11⟩)
  initAddOp := v0
theorem start_new : Cgka.newFromInitAdd H 1 ⟨11⟩ v0 = .ok start := by decide +kernel
theorem start_trusted : Trusted H start := .new ⟨0, [], rfl⟩ start_new

noncomputable def alice1 : Cgka := step H (start.withNewOwner 1 [(⟨11⟩, 11)]) (.add (sign 1501) MemberId.pub ⟨0⟩)
noncomputable def alice2 : Cgka := step H alice1 (.encrypt (sign 1502) gen 0 5 6)
theorem alice1_trusted : Trusted H alice1 :=
  .call (.owner 1 _ start_trusted (Sample.honest_one 11)) trivial (sign_good 1501)
theorem alice2_trusted : Trusted H alice2 := .call alice1_trusted trivial (sign_good 1502)

/-- Agent 5, who is not a member, has the operations and the public secret. -/
noncomputable def five : Cgka := ForkSample.recvAll H (start.withNewOwner 5 [(⟨0⟩, 0)]) [v1, v2]
theorem known : ∀ o ∈ [v1, v2], AMap.get alice2.graph.ops (H o) = some o := by decide +kernel
theorem five_trusted : Trusted H five := by
  refine recvAll_trusted (.owner 5 _ start_trusted (Sample.honest_one 0)) _ ?_
  exact fun o ho => ⟨alice2, H o, alice2_trusted, known o ho⟩

end PublicSample

namespace PublicProps

/-- C111: whatever is written while the public individual is a member of the group can be read, then and at any later time, by every
replica that has received the operations the writer had and holds the secret of the public individual's leaf in the writer's tree.
Whether the owner of the replica is a member does not matter. The conditions are those of C80: members are added and removed while nobody
does anything else, nobody updates twice at the same time, and node keys are not drawn twice. -/
theorem C111_public_content_partial {H : SOp → Nat} (hH : Function.Injective H) {a a' b : Cgka} (ha : Trusted H a)
    (hb : Trusted H b) {sign : Payload → Res SOp} (hs : GoodSigner sign) {g : BeeKem.Gen} {n r ps : Nat} {s : AppSecret}
    {op : Option SOp} (he : a.newAppSecretFor H sign g n r ps = (a', .ok (s, op))) (h1 : ChangesApart b) (h2 : UpdatesInTurn b)
    (h3 : FreshKeys b) (hk : ∀ x, Knows a' x → Knows b x) (hh : a'.graph.heads = [s.pcsUpdateOpHash])
    (hm : HoldsLeaf a'.tree MemberId.pub b.ownerSks) (p : Nat) :
    ∃ key, (b.decryptionKeyFor H (s.encrypt p)).2 = .ok key ∧ (s.encrypt p).openWith key = some p := by
  have sb := reachOk_inv hH (trusted_ok hb)
  have hst' : step H a (.encrypt sign g n r ps) = a' := by
    show (a.newAppSecretFor H sign g n r ps).1 = a'
    rw [he]
  have ha' : Trusted H a' := by
    rw [← hst']
    exact .call ha trivial hs
  have sa := reachOk_inv hH (trusted_ok ha)
  have sa' := reachOk_inv hH (trusted_ok ha')
  have Tb := together_of sb.graph h1 h2 h3
  have hk' : KnownIn a'.graph b.graph := fun x hx => (knows_iff b x).1 (hk x ((knows_iff a' x).2 hx))
  have Ta' := Tb.sub hH sa'.graph sb.graph hk'
  have haa : KnownIn a.graph a'.graph := by
    intro x hx
    rw [← hst']
    rcases own_graph H a (cmd := .encrypt sign g n r ps) trivial (Sample.good_honest hs) with h1 | ⟨o, _, h1⟩
    · rw [h1]; exact hx
    · rw [h1]
      show AMap.get (AMap.insert a.graph.ops (H o) o) x ≠ none
      rw [AMap.get_insert]
      split <;> simp_all
  have Ta := Ta'.sub hH sa.graph sa'.graph haa
  obtain ⟨k, o, hsec, hr, hroot⟩ := joined_root hH ha hs he Ta
  have hstrong : Strong a'.tree := joins_head hH ha' Ta' (by rw [hh]; rfl)
  obtain ⟨h, wb, -⟩ := trusted_near hH hb (together_oneRoot hH hb Tb) Tb.serial
  obtain ⟨q, hq, _⟩ := Props.C16_current_secret hH (trusted_ok hb)
  have ho : s.pcsUpdateOpHash = o := by rw [hsec]; rfl
  rw [ho] at hh
  have hcb := trusted_clean hH hb
  have hT := (trusted_clean hH ha').tree
  have := LaterProps.C73_content_partial hH (trusted_ok hb) (trusted_ok ha') ((oneRoot_iff sb.graph).2 (together_oneRoot hH hb Tb))
    ((Props.tidy_iff sa'.graph).2 (trusted_tidy hH ha')) hh hk hq (treeRoot_calm wb) (k := k) ?_ r ps p
  · rw [hsec]; exact this
  · rintro sks (rfl | ⟨c1, k1, h1, rfl⟩)
    · exact open_public hstrong hT hcb.keys hm hr hroot rfl rfl
    · obtain ⟨a1, _, a3⟩ := hcb.treeRoot h1
      exact open_public hstrong hT a1.keys (HoldsLeaf.grow hm a3) hr hroot rfl rfl

-- Alice makes the group public and writes; 5, who is not a member, reads.
open PublicSample in
open Sample (gen) in
example : Trusted H alice1 ∧ Trusted H five ∧ GoodSigner (sign 1502) ∧ ChangesApart five ∧ UpdatesInTurn five ∧ FreshKeys five ∧
    five.ownerId = 5 ∧ five.tree.containsId 5 = false ∧
    (match alice1.newAppSecretFor H (sign 1502) gen 0 5 6 with
      | (a', .ok (s, some _)) => decide (∀ x ∈ AMap.keys a'.graph.ops, AMap.contains five.graph.ops x = true) &&
          decide (a'.graph.heads = [s.pcsUpdateOpHash]) && decide (s.pcsKeyHash = ⟨1001⟩) &&
          decide (a'.tree.nodeKeyForId MemberId.pub = .ok (.share ⟨0⟩)) && decide (AMap.get five.ownerSks ⟨0⟩ = some 0)
      | _ => false) = true :=
  ⟨alice1_trusted, five_trusted, sign_good 1502, changes_of (by decide +kernel), turns_of (by decide +kernel), fresh_of (by decide +kernel),
    by decide +kernel, by decide +kernel, by decide +kernel⟩

end PublicProps

end Verif.Cgka
