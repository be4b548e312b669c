import Verif.Cgka.SecrecySpec
import Verif.Cgka.TrustSample
import Verif.Cgka.ForkSample

/-!
# Two concrete histories with concurrent operations

Operations were computed with signatures as stand-in digests and are written out here; each digest is its operation's number. The
theorems below re-check that the replicas really make these operations.
-/

namespace Verif.Cgka

open Verif.BeeKem Verif.Cgka.Sample

/-- Receiving, one by one, operations that some replica has recorded. -/
theorem recvAll_trusted {H : SOp → Nat} {c : Cgka} (h : Trusted H c) (l : List SOp)
    (hl : ∀ o ∈ l, ∃ d x, Trusted H d ∧ AMap.get d.graph.ops x = some o) : Trusted H (ForkSample.recvAll H c l) := by
  induction l generalizing c with
  | nil => exact h
  | cons o l ih =>
    obtain ⟨d, x, h1, h2⟩ := hl o (by simp)
    exact ih (.receive h h1 h2) (fun o' ho => hl o' (by simp [ho]))

/-- Checks `FreshKeys`. -/
def freshCheck (c : Cgka) : Bool :=
  (AMap.keys c.graph.ops).all fun x => (AMap.keys c.graph.ops).all fun y =>
    match AMap.get c.graph.ops x, AMap.get c.graph.ops y with
    | some ox, some oy => ox.payload.made.all fun s => (decide (s ∉ oy.payload.made) || decide (x = y)) && decide (s ∉ oy.payload.brought)
    | _, _ => true

theorem fresh_of {c : Cgka} (h : freshCheck c = true) : FreshKeys c := by
  intro x y ox oy s hx hy hs
  unfold freshCheck at h
  rw [List.all_eq_true] at h
  have h := h x (by rw [AMap.mem_keys_iff, hx]; simp)
  rw [List.all_eq_true] at h
  have h := h y (by rw [AMap.mem_keys_iff, hy]; simp)
  rw [hx, hy] at h
  simp only [List.all_eq_true, Bool.and_eq_true, Bool.or_eq_true, decide_eq_true_eq] at h
  have := h s hs
  exact ⟨fun h' => this.1.resolve_left (fun h1 => h1 h'), this.2⟩

/-- Checks that only the operations in `l` use the secret. -/
def usedCheck (c : Cgka) (l : List Nat) (s : Sk) : Bool :=
  (AMap.keys c.graph.ops).all fun y => match AMap.get c.graph.ops y with | some o => decide (s ∉ o.payload.uses) || decide (y ∈ l) | none => true

theorem used_of {c : Cgka} {x : Nat} {l : List Nat} {s : Sk} (h : usedCheck c l s = true) (hl : ∀ y ∈ l, y = x ∨ Before c x y) :
    UsedFrom c x s := by
  intro y o hy hs
  unfold usedCheck at h
  rw [List.all_eq_true] at h
  have h := h y (by rw [AMap.mem_keys_iff, hy]; simp)
  rw [hy] at h
  simp only [Bool.or_eq_true, decide_eq_true_eq] at h
  exact hl y (h.resolve_left (fun h1 => h1 hs))

/-- Checks `RootSecret`. -/
def rootCheck (t : BeeKem) (s : Sk) : Bool :=
  match TreeMath.root t.treeSize with
  | .inner j => match t.innerNodes[j]? with
    | some (some st) => match st.versions with | [v] => decide (v.pk = ⟨s⟩) | _ => false
    | _ => false
  | _ => false

theorem root_of {t : BeeKem} {s : Sk} (h : rootCheck t s = true) : Spec.RootSecret t s := by
  unfold rootCheck at h
  split at h
  · rename_i j hj
    split at h
    · rename_i st hst
      split at h
      · rename_i v hv
        exact ⟨j, st, v, hj, hst, hv, by simpa using h⟩
      · simp at h
    · simp at h
  · simp at h

/-- Checks that the secret is new to the replica. -/
def newCheck (c : Cgka) (s : Sk) : Bool :=
  (AMap.keys c.graph.ops).all fun y => match AMap.get c.graph.ops y with | some o => decide (s ∉ o.payload.uses) | none => true

theorem new_of {c : Cgka} {s : Sk} (h : newCheck c s = true) : ∀ y o, AMap.get c.graph.ops y = some o → s ∉ o.payload.uses := by
  intro y o hy
  unfold newCheck at h
  rw [List.all_eq_true] at h
  have h := h y (by rw [AMap.mem_keys_iff, hy]; simp)
  rw [hy] at h
  simpa using h

namespace CutSample

open ForkSample (recvAll)
open Sample hiding o1 o2 o3 o4 o5 o6 o7 o8 H

def o1 : SOp := ⟨.add 2 ⟨22⟩ 1 [0] [0], 0, 1⟩
def o2 : SOp := ⟨.add 3 ⟨33⟩ 2 [1] [1], 0, 2⟩
def o3 : SOp := ⟨.add 4 ⟨44⟩ 3 [2] [2], 0, 3⟩
def o4 : SOp := ⟨.add 5 ⟨55⟩ 4 [3] [3], 0, 4⟩
def o5 : SOp := ⟨.remove 3 2 [] [4], 0, 5⟩
def o6 : SOp := ⟨.remove 4 3 [] [5], 0, 6⟩
/-- Dora adds 6. -/
def o7 : SOp := ⟨.add 6 ⟨66⟩ 5 [6] [4], 0, 7⟩
/-- Alice removes 5, … -/
def o8 : SOp := ⟨.remove 5 4 [] [6], 0, 8⟩
/-- … adds 7, whom they put at leaf 2, … -/
def o9 : SOp := ⟨.add 7 ⟨77⟩ 2 [8] [4], 0, 9⟩
/-- … and updates: node 1 is sealed to 7. -/
def o10 : SOp := ⟨.update 1
  { leafId := 1, leafIdx := 0, leafPk := .share ⟨12⟩
    path := [node 0 1000 12 [(.leaf 1, box 12 22 1000 22), (.leaf 0, box 12 22 1000 22)],
             node 1 1001 1000 [(.leaf 2, box 77 1000 1001 77), (.inner 0, box 77 1000 1001 77)],
             node 3 1002 1001 [(.inner 1, box 1001 1003 1002 1003)]]
    removedKeys := [⟨11⟩] } [9], 0, 10⟩
/-- Member 6, having received both branches, updates: on replay 7 sits at leaf 6, and node 1 keeps the key sealed to 7, … -/
def o11 : SOp := ⟨.update 6
  { leafId := 6, leafIdx := 5, leafPk := .share ⟨67⟩
    path := [node 4 1020 67 [(.leaf 5, box 67 1021 1020 1021)],
             node 5 1022 1020 [(.leaf 6, box 77 1020 1022 77), (.inner 4, box 77 1020 1022 77)],
             node 3 1023 1022 [(.inner 1, box 1001 1022 1023 1001), (.inner 5, box 1001 1022 1023 1001)]]
    removedKeys := [⟨66⟩] } [10, 7], 0, 11⟩
/-- … removes 7, … -/
def o12 : SOp := ⟨.remove 7 6 [⟨1022⟩, ⟨1023⟩] [11], 0, 12⟩
/-- … and updates again. -/
def o13 : SOp := ⟨.update 6
  { leafId := 6, leafIdx := 5, leafPk := .share ⟨68⟩
    path := [node 4 1040 68 [(.leaf 5, box 68 1041 1040 1041)],
             node 5 1042 1040 [(.inner 4, box 1040 1043 1042 1043)],
             node 3 1044 1042 [(.inner 1, box 1001 1042 1044 1001), (.inner 5, box 1001 1042 1044 1001)]]
    removedKeys := [⟨67⟩, ⟨1020⟩] } [12], 0, 13⟩
/-- Member 7, having received both branches, updates. -/
def o14 : SOp := ⟨.update 7
  { leafId := 7, leafIdx := 6, leafPk := .share ⟨78⟩
    path := [node 6 1060 78 [(.leaf 6, box 78 1061 1060 1061)],
             node 5 1062 1060 [(.leaf 5, box 66 1060 1062 66), (.inner 6, box 66 1060 1062 66)],
             node 3 1063 1062 [(.inner 1, box 1001 1062 1063 1001), (.inner 5, box 1001 1062 1063 1001)]]
    removedKeys := [⟨77⟩] } [10, 7], 0, 14⟩

noncomputable def H : SOp → Nat := tableH [o0, o1, o2, o3, o4, o5, o6, o7, o8, o9, o10, o11, o12, o13, o14]
theorem H_inj : Function.Injective H := tableH_injective _
theorem start_new : Cgka.newFromInitAdd H 1 ⟨11⟩ o0 = .ok start := by decide +kernel
theorem owner_trusted (me : MemberId) (sk : Sk) : Trusted H (start.withNewOwner me [(⟨sk⟩, sk)]) :=
  .owner me _ (.new ⟨0, [], rfl⟩ start_new) (honest_one sk)

/-- Alice builds a group of five and removes 3 and 4 again. -/
noncomputable def a6 : Cgka :=
  step H (step H (step H (step H (step H (step H (start.withNewOwner 1 [(⟨11⟩, 11)]) (.add (sign 1) 2 ⟨22⟩)) (.add (sign 2) 3 ⟨33⟩))
    (.add (sign 3) 4 ⟨44⟩)) (.add (sign 4) 5 ⟨55⟩)) (.remove (sign 5) 3)) (.remove (sign 6) 4)
/-- Alice's branch. -/
noncomputable def a10 : Cgka := step H (step H (step H a6 (.remove (sign 8) 5)) (.add (sign 9) 7 ⟨77⟩)) (.update (sign 10) gen 0 12)
/-- Dora's branch. -/
noncomputable def d7 : Cgka := step H (recvAll H (start.withNewOwner 2 [(⟨22⟩, 22)]) [o1, o2, o3, o4, o5, o6]) (.add (sign 7) 6 ⟨66⟩)
/-- Member 6 after receiving both. -/
noncomputable def x10 : Cgka := recvAll H (start.withNewOwner 6 [(⟨66⟩, 66)]) [o1, o2, o3, o4, o5, o6, o7, o8, o9, o10]
noncomputable def x11 : Cgka := step H x10 (.update (sign 11) gen 20 67)
noncomputable def x12 : Cgka := step H x11 (.remove (sign 12) 7)
noncomputable def x13 : Cgka := step H x12 (.update (sign 13) gen 40 68)
/-- Member 7 after receiving both. -/
noncomputable def s10 : Cgka := recvAll H (start.withNewOwner 7 [(⟨77⟩, 77)]) [o1, o2, o3, o4, o5, o6, o7, o8, o9, o10]
noncomputable def s14 : Cgka := step H s10 (.update (sign 14) gen 60 78)

theorem a6_trusted : Trusted H a6 :=
  .call (.call (.call (.call (.call (.call (owner_trusted 1 11) trivial (sign_good 1)) trivial (sign_good 2)) trivial (sign_good 3)) trivial
    (sign_good 4)) trivial (sign_good 5)) trivial (sign_good 6)
theorem a10_trusted : Trusted H a10 :=
  .call (.call (.call a6_trusted trivial (sign_good 8)) trivial (sign_good 9)) trivial (sign_good 10)
theorem d7_trusted : Trusted H d7 := by
  refine .call (recvAll_trusted (owner_trusted 2 22) _ ?_) trivial (sign_good 7)
  have h : ∀ o ∈ [o1, o2, o3, o4, o5, o6], AMap.get a6.graph.ops (H o) = some o := by decide +kernel
  exact fun o ho => ⟨a6, H o, a6_trusted, h o ho⟩
theorem known_ops : ∀ o ∈ [o1, o2, o3, o4, o5, o6, o7, o8, o9, o10], ∃ d x, Trusted H d ∧ AMap.get d.graph.ops x = some o := by
  have h : ∀ o ∈ [o1, o2, o3, o4, o5, o6, o7, o8, o9, o10],
      AMap.get a10.graph.ops (H o) = some o ∨ AMap.get d7.graph.ops (H o) = some o := by decide +kernel
  intro o ho
  rcases h o ho with h | h
  · exact ⟨a10, H o, a10_trusted, h⟩
  · exact ⟨d7, H o, d7_trusted, h⟩
theorem x11_trusted : Trusted H x11 := .call (recvAll_trusted (owner_trusted 6 66) _ known_ops) trivial (sign_good 11)
theorem s10_trusted : Trusted H s10 := recvAll_trusted (owner_trusted 7 77) _ known_ops

theorem x13_ops : x13.graph.heads = [13] ∧ AMap.get x13.graph.ops 10 = some o10 ∧ AMap.get x13.graph.ops 12 = some o12 ∧
    AMap.get x13.graph.ops 13 = some o13 := by decide +kernel
theorem s14_ops : s14.graph.heads = [14] ∧ AMap.get s14.graph.ops 10 = some o10 ∧ AMap.get s14.graph.ops 14 = some o14 := by decide +kernel

end CutSample

namespace DaveSample

open ForkSample (recvAll)

/-- Bob's update after adding Dave. -/
def p8 : SOp := ⟨.update 2
  { leafId := 2, leafIdx := 1, leafPk := .share ⟨24⟩
    path := [node 0 1030 24 [(.leaf 0, box 12 24 1030 12), (.leaf 1, box 12 24 1030 12)],
             node 1 1031 1030 [(.leaf 3, box 44 1030 1031 44), (.leaf 2, box 33 1030 1031 33), (.inner 0, box 33 1030 1031 33)]]
    removedKeys := [⟨22⟩, ⟨1000⟩] } [6], 0, 8⟩
/-- Alice's update when they write, having removed Carol and then learnt of Dave. -/
def p9 : SOp := ⟨.update 1
  { leafId := 1, leafIdx := 0, leafPk := .share ⟨1020⟩
    path := [node 0 1021 1020 [(.leaf 1, box 22 1020 1021 22), (.leaf 0, box 22 1020 1021 22)],
             node 1 1022 1021 [(.inner 0, box 1021 1023 1022 1023)]]
    removedKeys := [⟨12⟩] } [6, 4], 0, 9⟩

/-- The operations of `Sample`, with these two at the end. -/
noncomputable def H : SOp → Nat := tableH [o0, o1, o2, o3, o4, o5, o6, o7, p8, p9]
theorem H_inj : Function.Injective H := tableH_injective _
theorem start_new : Cgka.newFromInitAdd H 1 ⟨11⟩ o0 = .ok start := by decide +kernel
theorem owner_trusted (me : MemberId) (sk : Sk) : Trusted H (start.withNewOwner me [(⟨sk⟩, sk)]) :=
  .owner me _ (.new ⟨0, [], rfl⟩ start_new) (honest_one sk)

noncomputable def alice3 : Cgka := ForkSample.alice3 H
noncomputable def alice7 : Cgka := step H alice3 (.update (sign 7) gen 10 13)
noncomputable def bob3 : Cgka := recvAll H (start.withNewOwner 2 [(⟨22⟩, 22)]) [o1, o2, o3]
noncomputable def bob6 : Cgka := step H bob3 (.add (sign 6) 4 ⟨44⟩)
noncomputable def bob8 : Cgka := step H bob6 (.update (sign 8) gen 30 24)
/-- Bob's replica after Alice's concurrent update. -/
noncomputable def bobAll : Cgka := recvAll H bob8 [o7]
/-- Alice removes Carol and receives Bob's concurrent addition of Dave. -/
noncomputable def alice6 : Cgka := recvAll H (step H alice3 (.remove (sign 4) 3)) [o6]
/-- Alice writes. -/
noncomputable def alice9 : Cgka := step H alice6 (.encrypt (sign 9) gen 20 5 6)
/-- Dave's replica with all of Alice's operations. -/
noncomputable def dave9 : Cgka := recvAll H (start.withNewOwner 4 [(⟨44⟩, 44)]) [o1, o2, o3, o4, o6, p9]

theorem alice3_trusted : Trusted H alice3 :=
  .call (cmd := .update (sign 3) gen 0 12) (.call (cmd := .add (sign 2) 3 ⟨33⟩) (.call (cmd := .add (sign 1) 2 ⟨22⟩)
    (owner_trusted 1 11) trivial (sign_good 1)) trivial (sign_good 2)) trivial (sign_good 3)
theorem alice7_trusted : Trusted H alice7 := .call alice3_trusted trivial (sign_good 7)
theorem bob3_trusted : Trusted H bob3 := by
  refine recvAll_trusted (owner_trusted 2 22) _ ?_
  have h : ∀ o ∈ [o1, o2, o3], AMap.get alice3.graph.ops (H o) = some o := by decide +kernel
  exact fun o ho => ⟨alice3, H o, alice3_trusted, h o ho⟩
theorem bob6_trusted : Trusted H bob6 := .call bob3_trusted trivial (sign_good 6)
theorem bob8_trusted : Trusted H bob8 := .call bob6_trusted trivial (sign_good 8)
theorem bobAll_trusted : Trusted H bobAll := by
  refine recvAll_trusted bob8_trusted _ ?_
  have h : ∀ o ∈ [o7], AMap.get alice7.graph.ops (H o) = some o := by decide +kernel
  exact fun o ho => ⟨alice7, H o, alice7_trusted, h o ho⟩
theorem alice6_trusted : Trusted H alice6 := by
  refine recvAll_trusted (.call (cmd := .remove (sign 4) 3) alice3_trusted trivial (sign_good 4)) _ ?_
  have h : ∀ o ∈ [o6], AMap.get bob6.graph.ops (H o) = some o := by decide +kernel
  exact fun o ho => ⟨bob6, H o, bob6_trusted, h o ho⟩
theorem alice9_trusted : Trusted H alice9 := .call alice6_trusted trivial (sign_good 9)
theorem dave9_trusted : Trusted H dave9 := by
  refine recvAll_trusted (owner_trusted 4 44) _ ?_
  have h : ∀ o ∈ [o1, o2, o3, o4, o6, p9], AMap.get alice9.graph.ops (H o) = some o := by decide +kernel
  exact fun o ho => ⟨alice9, H o, alice9_trusted, h o ho⟩

end DaveSample

end Verif.Cgka
