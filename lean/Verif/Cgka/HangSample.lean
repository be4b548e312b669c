import Verif.Cgka.CutSample

/-!
# A history after which a replay does not return

Alice (1) builds a group of four, at leaves 0 to 3. Then Alice removes 4, the member at the last leaf, while Bob (2) adds 5, whom he
puts at leaf 4 of a larger tree, and 5 updates. Carol (3) receives everything.
-/

namespace Verif.Cgka

open Verif.BeeKem Verif.Cgka.Sample

namespace HangSample

open ForkSample (recvAll)
open Sample hiding o1 o2 o3 o4 o5 o6 o7 o8 H

def o1 : SOp := ⟨.add 2 ⟨22⟩ 1 [0] [0], 0, 1⟩
def o2 : SOp := ⟨.add 3 ⟨33⟩ 2 [1] [1], 0, 2⟩
def o3 : SOp := ⟨.add 4 ⟨44⟩ 3 [2] [2], 0, 3⟩
/-- Alice removes 4. -/
def o4 : SOp := ⟨.remove 4 3 [] [3], 0, 4⟩
/-- Bob adds 5. -/
def o5 : SOp := ⟨.add 5 ⟨55⟩ 4 [3] [3], 0, 5⟩
/-- 5 updates. -/
def o6 : SOp := ⟨.update 5
  { leafId := 5, leafIdx := 4, leafPk := .share ⟨56⟩
    path := [node 4 1000 56 [(.leaf 4, box 56 1001 1000 1001)],
             node 5 1002 1000 [(.inner 4, box 1000 1003 1002 1003)],
             node 3 1004 1002 [(.leaf 3, box 44 1002 1004 44), (.leaf 2, box 33 1002 1004 33), (.leaf 1, box 22 1002 1004 22),
               (.leaf 0, box 11 1002 1004 11), (.inner 5, box 11 1002 1004 11)]]
    removedKeys := [⟨55⟩] } [5], 0, 6⟩

noncomputable def H : SOp → Nat := tableH [o0, o1, o2, o3, o4, o5, o6]
theorem H_inj : Function.Injective H := tableH_injective _
theorem start_new : Cgka.newFromInitAdd H 1 ⟨11⟩ o0 = .ok start := by decide +kernel
theorem owner_trusted (me : MemberId) (sk : Sk) : Trusted H (start.withNewOwner me [(⟨sk⟩, sk)]) :=
  .owner me _ (.new ⟨0, [], rfl⟩ start_new) (honest_one sk)

noncomputable def alice3 : Cgka :=
  step H (step H (step H (start.withNewOwner 1 [(⟨11⟩, 11)]) (.add (sign 1) 2 ⟨22⟩)) (.add (sign 2) 3 ⟨33⟩)) (.add (sign 3) 4 ⟨44⟩)
noncomputable def alice4 : Cgka := step H alice3 (.remove (sign 4) 4)
noncomputable def bob5 : Cgka := step H (recvAll H (start.withNewOwner 2 [(⟨22⟩, 22)]) [o1, o2, o3]) (.add (sign 5) 5 ⟨55⟩)
noncomputable def eve6 : Cgka := step H (recvAll H (start.withNewOwner 5 [(⟨55⟩, 55)]) [o1, o2, o3, o5]) (.update (sign 6) gen 0 56)
/-- Carol's replica. -/
noncomputable def carol : Cgka := recvAll H (start.withNewOwner 3 [(⟨33⟩, 33)]) [o1, o2, o3, o4, o5, o6]

theorem alice3_trusted : Trusted H alice3 :=
  .call (.call (.call (owner_trusted 1 11) trivial (sign_good 1)) trivial (sign_good 2)) trivial (sign_good 3)
theorem alice4_trusted : Trusted H alice4 := .call alice3_trusted trivial (sign_good 4)
theorem bob5_trusted : Trusted H bob5 := by
  refine .call (recvAll_trusted (owner_trusted 2 22) _ ?_) trivial (sign_good 5)
  have h : ∀ o ∈ [o1, o2, o3], AMap.get alice3.graph.ops (H o) = some o := by decide +kernel
  exact fun o ho => ⟨alice3, H o, alice3_trusted, h o ho⟩
theorem eve6_trusted : Trusted H eve6 := by
  refine .call (recvAll_trusted (owner_trusted 5 55) _ ?_) trivial (sign_good 6)
  have h : ∀ o ∈ [o1, o2, o3, o5], AMap.get bob5.graph.ops (H o) = some o := by decide +kernel
  exact fun o ho => ⟨bob5, H o, bob5_trusted, h o ho⟩
theorem carol_trusted : Trusted H carol := by
  refine recvAll_trusted (owner_trusted 3 33) _ ?_
  have h : ∀ o ∈ [o1, o2, o3, o4, o5, o6],
      AMap.get alice4.graph.ops (H o) = some o ∨ AMap.get eve6.graph.ops (H o) = some o := by decide +kernel
  intro o ho
  rcases h o ho with h | h
  · exact ⟨alice4, H o, alice4_trusted, h⟩
  · exact ⟨eve6, H o, eve6_trusted, h⟩

end HangSample

end Verif.Cgka
