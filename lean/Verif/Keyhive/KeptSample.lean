import Verif.Keyhive.LocalSample
import Verif.Keyhive.KeptSpec

/-! # Devices for the examples and counterexamples about keeping keys and roles -/

namespace Verif.Keyhive.Sample

open Verif.Group Verif.Cgka Verif.BeeKem

theorem reach_feed' {E : Env} {es : List Event} : ∀ {k : Keyhive}, Reach E k → Reach E (feed E k es) := by
  induction es with
  | nil => intro k h; exact h
  | cons e es ih => intro k h; exact ih (.call (.receive e) h trivial)

/-- As before, but the key of document 300 does not sign delegations with a proof. -/
noncomputable def ER : Env := { EL with validDlg := fun s => decide (s.sig / 1000 = s.issuer) && (decide (s.issuer ≠ 300) || s.proof.isNone) }

/-- A delegation with a proof. -/
def linked : Op → Bool
  | .dlg d => d.proof.isSome
  | .rev _ => false

/-- The signer that goes with it. -/
def sgR (o : Op) : Option Nat := if o.issuer = 300 ∧ linked o = true then none else sg o

/-- What agent 5 uses. -/
def LR : Local := { L with sign := sgR }

theorem ER_roots : ER.OnlyRoots 300 := by
  intro s h hi
  simp only [ER, Bool.and_eq_true, Bool.or_eq_true, decide_eq_true_eq, Option.isNone_iff_eq_none] at h
  exact h.2.resolve_left (fun h => h hi)

theorem sgR_signs : Signs ER sgR := by
  intro o s h
  unfold sgR at h
  split at h
  · cases h
  · rename_i hn
    have h1 := sg_signs hcL o s h
    cases o with
    | rev r => cases r <;> exact (show decide (s / 1000 = _) = true from h1)
    | dlg d =>
      cases d with
      | root i t a c rs x =>
        have h1 : decide (s / 1000 = i) = true := h1
        show (decide (s / 1000 = i) && (decide (i ≠ 300) || true)) = true
        simp only [h1, Bool.or_true, Bool.and_self]
      | link i t a c p rs x =>
        have h1 : decide (s / 1000 = i) = true := h1
        have hn : ¬ (i = 300 ∧ true = true) := hn
        show (decide (s / 1000 = i) && (decide (i ≠ 300) || false)) = true
        have : i ≠ 300 := fun h => hn ⟨h, rfl⟩
        simp only [h1, this, ne_eq, not_false_iff, decide_true, Bool.or_false, Bool.and_self]

theorem LR_honest : LR.Honest ER := ⟨sgR_signs, fun _ _ _ h => by cases h; rfl⟩

/-- Agent 5 makes document 300. -/
noncomputable def w1 : Keyhive := (k0.generateDoc ER LR sgR 300 [] [1]).1
/-- And encrypts 42. -/
noncomputable def w2 : Keyhive := (w1.encryptContent ER LR 300 7 8 42).1
/-- Alice becomes a reading member. -/
noncomputable def w3 : Keyhive := (w2.addMemberToDoc ER LR 300 ⟨.individual, 1⟩ .read []).1

theorem reach_w1 : Reach ER w1 := .call (.newDoc LR sgR 300 [] [1]) (.start reg [(⟨55⟩, 55)]) ⟨sgR_signs, LR_honest⟩
theorem reach_w2 : Reach ER w2 := .call (.encrypt LR 300 7 8 42) reach_w1 LR_honest
theorem onward_w3 : Onward ER 300 w2 w3 := .call (.addToDoc LR 300 ⟨.individual, 1⟩ .read []) .refl LR_honest (fun _ _ _ _ h => by cases h)

/-- Alice invites agent 5. -/
def s5 : SOp := ⟨.add 5 ⟨55⟩ 1 [0] [0], 1, 1501⟩
/-- The digest of these operations. -/
noncomputable def hcI : SOp → Nat := tableH [s0, s5]
/-- Digests and signatures for the invitation. -/
noncomputable def EI : Env := env hcI

/-- Agent 66, who is nobody here, starts the key tree of document 300 a second time. -/
def s6 : SOp := ⟨.initAdd 66 ⟨66⟩, 66, 66002⟩
/-- The digest of these operations. -/
noncomputable def hcT : SOp → Nat := tableH [s0, s5, s6]
/-- Digests and signatures for the second start. -/
noncomputable def ET : Env := env hcT

/-- A delegation of individual 7 to Alice is the proof that the key of document 300 gives; the content is about 7. -/
def evil : SDlg := ⟨300, 300002, 2, .admin, some (hashDlg x7), [], [(7, [9])]⟩

/-- Alice passes on the access that 7 gave them. -/
def share : SDlg := ⟨1, 1005, 2, .admin, some (hashDlg x7), [], []⟩

/-- As before, but Alice's key signs no delegation without a proof. -/
noncomputable def EA : Env := { Sample.E with validDlg := fun s => decide (s.sig / 1000 = s.issuer) && (decide (s.issuer ≠ 1) || s.proof.isSome) }

theorem EA_alice : EA.Individuals (fun i => i = 1) := by
  intro s h hp hi
  simp [EA, hp, hi] at h

/-- As before, but keys below 100 sign no delegation without a proof. -/
noncomputable def EP : Env := { Sample.E with validDlg := fun s => decide (s.sig / 1000 = s.issuer) && (decide (100 ≤ s.issuer) || s.proof.isSome) }

theorem EP_individuals : EP.Individuals (fun i => i < 100) := by
  intro s h hp hi
  have h1 : s.sig / 1000 = s.issuer ∧ 100 ≤ s.issuer := by simpa [EP, hp] using h
  exact absurd hi (Nat.not_lt.2 h1.2)

theorem plain_feed {E : Env} {Ind : Id → Prop} {es : List Event} (he : ∀ op, .prekey op ∉ es) : ∀ {k : Keyhive}, ReachPlain E Ind k → ReachPlain E Ind (feed E k es) := by
  induction es with
  | nil => intro k h; exact h
  | cons e es ih =>
    intro k h
    refine ih (fun op ho => he op (by simp [ho])) (.call (.receive e) h trivial ?_)
    cases e with
    | prekey op => exact absurd (by simp) (he op)
    | _ => trivial

theorem plain_k0 : ReachPlain EP (fun i => i < 100) k0 := .start reg _ (by unfold Listed; decide +kernel)

/-- A prekey of document 300, not signed by its key. -/
def forged300 : Prekey.KeyOp := ⟨300, 9, .add 309⟩

end Verif.Keyhive.Sample
