import Verif.Cgka.HangSample
import Verif.Cgka.Settle

/-!
# A history with a removal and concurrent additions and updates after it

Alice (1) builds a group of four and removes 4, the member at the last leaf. Then Alice adds 5 while Bob (2) adds 6, both at leaf 3,
and updates. Carol (3) receives everything.
-/

namespace Verif.Cgka

open Verif.BeeKem Verif.Cgka.Sample

namespace SerialSample

open ForkSample (recvAll)
open Sample hiding o1 o2 o3 o4 o5 o6 o7 o8 H

/-- Alice's additions and removal. -/
abbrev o1 : SOp := HangSample.o1
abbrev o2 : SOp := HangSample.o2
abbrev o3 : SOp := HangSample.o3
abbrev o4 : SOp := HangSample.o4

/-- Alice adds 5. -/
def o5 : SOp := ⟨.add 5 ⟨55⟩ 3 [4] [3], 0, 5⟩
/-- Bob adds 6. -/
def o6 : SOp := ⟨.add 6 ⟨66⟩ 3 [4] [3], 0, 6⟩
/-- Bob updates. -/
def o7 : SOp := ⟨.update 2
  { leafId := 2, leafIdx := 1, leafPk := .share ⟨23⟩
    path := [node 0 1000 23 [(.leaf 0, box 11 23 1000 11), (.leaf 1, box 11 23 1000 11)],
             node 1 1001 1000 [(.leaf 3, box 66 1000 1001 66), (.leaf 2, box 33 1000 1001 33), (.inner 0, box 33 1000 1001 33)]]
    removedKeys := [⟨22⟩] } [6], 0, 7⟩

noncomputable def H : SOp → Nat := tableH [o0, o1, o2, o3, o4, o5, o6, o7]
theorem H_inj : Function.Injective H := tableH_injective _
theorem start_new : Cgka.newFromInitAdd H 1 ⟨11⟩ o0 = .ok start := by decide +kernel
theorem owner_trusted (me : MemberId) (sk : Sk) : Trusted H (start.withNewOwner me [(⟨sk⟩, sk)]) :=
  .owner me _ (.new ⟨0, [], rfl⟩ start_new) (honest_one sk)

noncomputable def alice4 : Cgka :=
  step H (step H (step H (step H (start.withNewOwner 1 [(⟨11⟩, 11)]) (.add (sign 1) 2 ⟨22⟩)) (.add (sign 2) 3 ⟨33⟩)) (.add (sign 3) 4 ⟨44⟩))
    (.remove (sign 4) 4)
noncomputable def alice5 : Cgka := step H alice4 (.add (sign 5) 5 ⟨55⟩)
noncomputable def bob7 : Cgka :=
  step H (step H (recvAll H (start.withNewOwner 2 [(⟨22⟩, 22)]) [o1, o2, o3, o4]) (.add (sign 6) 6 ⟨66⟩)) (.update (sign 7) gen 0 23)
/-- Carol's replica, before Bob's update. -/
noncomputable def carol6 : Cgka := recvAll H (start.withNewOwner 3 [(⟨33⟩, 33)]) [o1, o2, o3, o4, o5, o6]
/-- Carol's replica. -/
noncomputable def carol : Cgka := recvAll H (start.withNewOwner 3 [(⟨33⟩, 33)]) [o1, o2, o3, o4, o5, o6, o7]

theorem alice4_trusted : Trusted H alice4 :=
  .call (.call (.call (.call (owner_trusted 1 11) trivial (sign_good 1)) trivial (sign_good 2)) trivial (sign_good 3)) trivial
    (sign_good 4)
theorem alice5_trusted : Trusted H alice5 := .call alice4_trusted trivial (sign_good 5)
theorem bob7_trusted : Trusted H bob7 := by
  refine .call (.call (recvAll_trusted (owner_trusted 2 22) _ ?_) trivial (sign_good 6)) trivial (sign_good 7)
  have h : ∀ o ∈ [o1, o2, o3, o4], AMap.get alice4.graph.ops (H o) = some o := by decide +kernel
  exact fun o ho => ⟨alice4, H o, alice4_trusted, h o ho⟩
theorem known_ops : ∀ o ∈ [o1, o2, o3, o4, o5, o6, o7], ∃ d x, Trusted H d ∧ AMap.get d.graph.ops x = some o := by
  have h : ∀ o ∈ [o1, o2, o3, o4, o5, o6, o7],
      AMap.get alice5.graph.ops (H o) = some o ∨ AMap.get bob7.graph.ops (H o) = some o := by decide +kernel
  intro o ho
  rcases h o ho with h | h
  · exact ⟨alice5, H o, alice5_trusted, h⟩
  · exact ⟨bob7, H o, bob7_trusted, h⟩
theorem carol_trusted : Trusted H carol := recvAll_trusted (owner_trusted 3 33) _ known_ops
theorem carol6_trusted : Trusted H carol6 :=
  recvAll_trusted (owner_trusted 3 33) _ (fun o ho => known_ops o (by
    simp only [List.mem_cons, List.not_mem_nil, or_false] at ho ⊢
    rcases ho with h | h | h | h | h | h <;> simp [h]))

/-! Alice makes the group public; 9, who is not a member, follows. -/

/-- Alice adds the public member. -/
def q1 : SOp := ⟨.add MemberId.pub ⟨77⟩ 1 [0] [0], 0, 1⟩
noncomputable def HQ : SOp → Nat := tableH [o0, q1]
theorem HQ_inj : Function.Injective HQ := tableH_injective _
theorem start_newQ : Cgka.newFromInitAdd HQ 1 ⟨11⟩ o0 = .ok start := by decide +kernel
theorem owner_trustedQ (me : MemberId) (sk : Sk) : Trusted HQ (start.withNewOwner me [(⟨sk⟩, sk)]) :=
  .owner me _ (.new ⟨0, [], rfl⟩ start_newQ) (honest_one sk)
noncomputable def aliceQ : Cgka := step HQ (start.withNewOwner 1 [(⟨11⟩, 11)]) (.add (sign 1) MemberId.pub ⟨77⟩)
theorem aliceQ_trusted : Trusted HQ aliceQ := .call (owner_trustedQ 1 11) trivial (sign_good 1)
/-- The replica of 9, who holds the public key. -/
noncomputable def nine : Cgka := recvAll HQ (start.withNewOwner 9 [(⟨77⟩, 77)]) [q1]
theorem nine_trusted : Trusted HQ nine := by
  refine recvAll_trusted (owner_trustedQ 9 77) _ ?_
  have h : ∀ o ∈ [q1], AMap.get aliceQ.graph.ops (HQ o) = some o := by decide +kernel
  exact fun o ho => ⟨aliceQ, HQ o, aliceQ_trusted, h o ho⟩

/-- No leaf holds several keys. -/
def noConflict (t : BeeKem) : Bool := t.leaves.all (fun l => match l with | some ⟨_, .conflict _ _ _⟩ => false | _ => true)

/-- The tree that a replay gives, if it has the property. -/
def replayed (H : SOp → Nat) (c : Cgka) (p : BeeKem → Bool) : Bool :=
  match rebuilt H c.originalMember c.initAddOp c.graph with
  | .ok r => p r.tree
  | .error _ => false

end SerialSample

end Verif.Cgka
