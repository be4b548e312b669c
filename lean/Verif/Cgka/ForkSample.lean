import Verif.Cgka.Sample

/-!
# A concrete history with a fork that is merged back

As in `Verif.Cgka.Sample`, up to Alice's first update. Then Carol (3) adds Dave (4) and updates. Alice receives Carol's two
operations on a fork, merges the fork back and updates. Operations are computed with signatures as stand-in digests and then
numbered in that order, which gives the same operations.
-/

namespace Verif.Cgka.ForkSample

open Verif.BeeKem Verif.Cgka Verif.Cgka.Sample

def sig (o : SOp) : Nat := o.signature

def opOf (r : Res (Option SOp)) : SOp := match r with | .ok (some o) => o | _ => o0
def upOf (r : Res (Sk × SOp)) : SOp := match r with | .ok (_, o) => o | _ => o0

def recvAll (H : SOp → Nat) (c : Cgka) : List SOp → Cgka
  | [] => c
  | o :: l => recvAll H (step H c (.receive o)) l

def merged (H : SOp → Nat) (c fork : Cgka) : Cgka := match c.merge H fork with | .ok c => c | .error _ => c

def carol3 (H : SOp → Nat) : Cgka := recvAll H (start.withNewOwner 3 [(⟨33⟩, 33)]) [o1, o2, o3]
/-- Carol adds Dave. -/
def p4 : SOp := opOf ((carol3 sig).add sig (sign 4) 4 ⟨44⟩).2
def carol4 (H : SOp → Nat) : Cgka := step H (carol3 H) (.add (sign 4) 4 ⟨44⟩)
/-- Carol updates. -/
def p5 : SOp := upOf ((carol4 sig).update sig (sign 5) gen 10 34).2
def carol5 (H : SOp → Nat) : Cgka := step H (carol4 H) (.update (sign 5) gen 10 34)
def alice3 (H : SOp → Nat) : Cgka :=
  step H (step H (step H (start.withNewOwner 1 [(⟨11⟩, 11)]) (.add (sign 1) 2 ⟨22⟩)) (.add (sign 2) 3 ⟨33⟩)) (.update (sign 3) gen 0 12)
/-- Alice's fork, after receiving Carol's operations. -/
def fork (H : SOp → Nat) : Cgka := recvAll H (alice3 H) [p4, p5]
/-- Alice after merging the fork. -/
def aliceMerged (H : SOp → Nat) : Cgka := merged H (alice3 H) (fork H)
/-- Alice updates. -/
def p6 : SOp := upOf ((aliceMerged sig).update sig (sign 6) gen 20 14).2
def carol6 (H : SOp → Nat) : Cgka := recvAll H (carol5 H) [p6]

noncomputable def H : SOp → Nat := tableH [o0, o1, o2, o3, p4, p5, p6]

theorem H_inj : Function.Injective H := tableH_injective _

theorem start_new : Cgka.newFromInitAdd H 1 ⟨11⟩ o0 = .ok start := by decide +kernel

theorem alice3_ok : ReachOk H (alice3 H) :=
  .call (.call (.call (.owner 1 [(⟨11⟩, 11)] (.new ⟨0, [], rfl⟩ start_new)) (sign_good 1)) (sign_good 2)) (sign_good 3)
theorem recvAll_ok {c : Cgka} (h : ReachOk H c) (l : List SOp) : ReachOk H (recvAll H c l) := by
  induction l generalizing c with
  | nil => exact h
  | cons o l ih => exact ih (.call (cmd := .receive o) h trivial)
theorem fork_ok : ReachOk H (fork H) := recvAll_ok alice3_ok _
theorem carol3_ok : ReachOk H (carol3 H) := recvAll_ok (.owner 3 [(⟨33⟩, 33)] (.new ⟨0, [], rfl⟩ start_new)) _
theorem carol4_ok : ReachOk H (carol4 H) := .call (cmd := .add (sign 4) 4 ⟨44⟩) carol3_ok (sign_good 4)
theorem carol5_ok : ReachOk H (carol5 H) := .call (cmd := .update (sign 5) gen 10 34) carol4_ok (sign_good 5)
theorem carol6_ok : ReachOk H (carol6 H) := recvAll_ok carol5_ok _

end Verif.Cgka.ForkSample
