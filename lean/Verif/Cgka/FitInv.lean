import Verif.Cgka.Converge

/-! # Helper lemmas: the tree of a replica always has room, and a structural head leaves no root key -/

namespace Verif.Cgka

open Verif.BeeKem

/-- The tree has a consistent size. -/
def HasFit (t : BeeKem) : Prop := ∃ h, BeeKem.Fit t h

theorem HasFit.root {t : BeeKem} (h : HasFit t) : ∃ b, t.hasRootKey = .ok b := by
  obtain ⟨k, f⟩ := h
  exact ⟨_, BeeKem.hasRootKey_ok f.shape⟩

theorem new_fit {id : MemberId} {pk : Pk} {t : BeeKem} (h : BeeKem.new id pk = .ok t) : HasFit t ∧ t.hasRootKey = .ok false := by
  unfold BeeKem.new at h
  simp only [bind, Except.bind] at h
  split at h
  · simp at h
  · rename_i p hp
    cases h
    obtain ⟨t', i⟩ := p
    exact BeeKem.pushLeaf_fit (h := 1) ⟨⟨by omega, by decide +kernel, by decide +kernel, by decide +kernel⟩, Nat.zero_le _⟩ hp

theorem treeOp_fit {t t' : BeeKem} {op : SOp} (f : HasFit t) (h : treeOp t op = .ok t') :
    HasFit t' ∧ (op.payload.isStructural = true → t'.hasRootKey = .ok false) := by
  obtain ⟨k, f⟩ := f
  unfold treeOp at h
  split at h
  · rename_i he
    simp only [bind, Except.bind] at h
    split at h
    · simp at h
    · rename_i p hp
      cases h
      have := BeeKem.pushLeaf_fit (i := p.2) f hp
      exact ⟨this.1, fun _ => this.2⟩
  · rename_i he
    simp only [bind, Except.bind] at h
    split at h
    · simp at h
    · rename_i p hp
      cases h
      have := BeeKem.removeId_fit (x := p.2) f hp
      exact ⟨⟨k, this.1⟩, fun _ => this.2⟩
  · rename_i he
    refine ⟨⟨k, (BeeKem.applyPath_dims h).fit f⟩, ?_⟩
    rw [he]
    simp [Payload.isStructural]

theorem applyOperation_fit {H : SOp → Nat} {c c' : Cgka} {op : SOp} (f : HasFit c.tree)
    (h : c.applyOperation H op = .ok c') : HasFit c'.tree := by
  by_cases hf : AMap.get c.graph.ops (H op) = none
  · exact (treeOp_fit f (applyOperation_tree hf h).1).1
  · unfold Cgka.applyOperation at h
    rw [if_pos ((containsOpHash_iff _ _).2 hf)] at h
    cases h
    exact f

theorem applyOps_fit {H : SOp → Nat} {l : List SOp} {c c' : Cgka} (f : HasFit c.tree)
    (h : c.applyOps H l = .ok c') : HasFit c'.tree := by
  induction l generalizing c with
  | nil => cases h; exact f
  | cons o l ih =>
    simp only [Cgka.applyOps, bind, Except.bind] at h
    split at h
    · simp at h
    · rename_i c1 h1
      exact ih (applyOperation_fit f h1) h

theorem applyEpochs_fit {H : SOp → Nat} {l : List (List SOp)} {c c' : Cgka} (f : HasFit c.tree)
    (h : c.applyEpochs H l = .ok c') : HasFit c'.tree := by
  induction l generalizing c with
  | nil => cases h; exact f
  | cons e l ih =>
    simp only [Cgka.applyEpochs, bind, Except.bind] at h
    split at h
    · simp at h
    · rename_i c1 h1
      refine ih ?_ h
      unfold Cgka.applyEpoch at h1
      split at h1
      · exact applyOps_fit f h1
      · simp only [bind, Except.bind] at h1
        split at h1
        · simp at h1
        · rename_i c2 h2
          split at h1
          · simp at h1
          · rename_i t ht
            cases h1
            obtain ⟨k, f2⟩ := applyOps_fit f h2
            exact BeeKem.sortLeaves_fit f2 ht

theorem rebuilt_fit {H : SOp → Nat} {orig : MemberId × Pk} {init : SOp} {g : Graph} {r : Cgka}
    (h : rebuilt H orig init g = .ok r) : HasFit r.tree := by
  unfold rebuilt at h
  simp only [bind, Except.bind] at h
  split at h
  · simp at h
  · split at h
    · simp at h
    · rename_i r0 h0
      refine applyEpochs_fit ?_ h
      exact (new_fit (newFromInitAdd_frame h0).2.2.2.2.2.2.2.2).1

theorem Settled.fit {H : SOp → Nat} {orig : MemberId × Pk} {init : SOp} {g : Graph} {t : BeeKem}
    (h : Settled H orig init g t) : HasFit t := by
  induction h with
  | start hn => exact (new_fit hn).1
  | replay _ hr => exact rebuilt_fit hr
  | apply _ _ _ _ _ ht _ _ ih => exact (treeOp_fit ih ht).1

/-- With a single head that adds or removes a member there is no root key. -/
theorem Settled.structural {H : SOp → Nat} {orig : MemberId × Pk} {init : SOp} {g : Graph} {t : BeeKem}
    (h : Settled H orig init g t) (hg : GInv H g) {x : Nat} {op : SOp} (hh : g.heads = [x])
    (ho : AMap.get g.ops x = some op) (hs : op.payload.isStructural = true) : t.hasRootKey = .ok false := by
  cases h with
  | start hn => exact (new_fit hn).2
  | replay hl _ => rw [hh] at hl; simp at hl
  | @apply g0 _ t0 _ op0 s0 i0 hf hcov hk ht hops hl =>
    have hm : H op0 ∈ g.heads := by
      rw [hg.heads]
      refine ⟨by rw [hops]; simp, ?_⟩
      intro y hy
      rw [hg.predOf] at hy
      obtain ⟨o, ho, hpo⟩ := hy
      rw [hops, AMap.get_insert] at ho
      split at ho
      · cases ho
        exact hk _ hpo hf
      · exact (i0.known_pred ((i0.predOf _ _).2 ⟨o, ho, hpo⟩)).1 hf
    rw [hh, List.mem_singleton] at hm
    rw [← hm, hops, AMap.get_insert_self] at ho
    cases ho
    exact (treeOp_fit s0.fit ht).2 hs

theorem replayIfNeeded_fit {H : SOp → Nat} {c c1 : Cgka} (f : HasFit c.tree) (h : c.replayIfNeeded H = .ok c1) :
    HasFit c1.tree := by
  unfold Cgka.replayIfNeeded at h
  split at h
  · obtain ⟨⟨r, hr, ht⟩, _⟩ := replay_rebuilt h
    rw [← ht]; exact rebuilt_fit hr
  · cases h; exact f

theorem update_fit {H : SOp → Nat} {sign : Payload → Res SOp} {g : BeeKem.Gen} {n : Nat} {c : Cgka} {newSk : Sk}
    (f : HasFit c.tree) : HasFit (c.update H sign g n newSk).1.tree := by
  unfold Cgka.update
  split
  · exact f
  · rename_i c1 hr
    have f1 := replayIfNeeded_fit f hr
    split
    · exact f1
    · dsimp only
      split
      · exact f1
      · rename_i tree sks n' k pc henc
        obtain ⟨k', f1⟩ := f1
        have f2 : HasFit tree := ⟨k', (BeeKem.encryptPath_dims henc).fit f1⟩
        split
        · exact f2
        · exact f2

theorem step_fit {H : SOp → Nat} (c : Cgka) (cmd : Cmd) (f : HasFit c.tree) : HasFit (step H c cmd).tree := by
  cases cmd with
  | add sign id pk =>
    simp only [step]
    unfold Cgka.add
    split
    · exact f
    · split
      · exact f
      · rename_i c1 hr
        have f1 := replayIfNeeded_fit f hr
        split
        · exact f1
        · rename_i t i hp
          dsimp only
          obtain ⟨k', f1⟩ := f1
          split
          · exact (BeeKem.pushLeaf_fit f1 hp).1
          · exact (BeeKem.pushLeaf_fit f1 hp).1
  | remove sign id =>
    simp only [step]
    unfold Cgka.remove
    split
    · exact f
    · split
      · exact f
      · rename_i c1 hr
        have f1 := replayIfNeeded_fit f hr
        split
        · exact f1
        · split
          · exact f1
          · rename_i t i ks hp
            dsimp only
            obtain ⟨k', f1⟩ := f1
            split
            · exact ⟨_, (BeeKem.removeId_fit f1 hp).1⟩
            · exact ⟨_, (BeeKem.removeId_fit f1 hp).1⟩
  | update sign g n sk => exact update_fit f
  | encrypt sign g n r ps =>
    have hfin : ∀ (c : Cgka) (k : Sk) (op : Option SOp), (c.finishAppSecret k op r ps).1 = c := by
      intro c k op; unfold Cgka.finishAppSecret; split <;> rfl
    simp only [step]
    unfold Cgka.newAppSecretFor
    split
    · exact f
    · have hu := update_fit (H := H) (sign := sign) (g := g) (n := n + 1) (newSk := g n) f
      split
      · rename_i he; rw [he] at hu; exact hu
      · rename_i he
        rw [he] at hu
        rw [hfin]; exact hu
    · split
      · exact f
      · rename_i c1 k hr
        have : c1.tree = c.tree := congrArg Prod.fst (treeRoot_tg hr).1
        split
        · rw [hfin, this]; exact f
        · split
          · rw [hfin, this]; exact f
          · rw [hfin]
            show HasFit c1.tree
            rw [this]; exact f
  | decrypt e =>
    have : (c.decryptionKeyFor H e).1.tree = c.tree := congrArg Prod.fst (decrypt_tg H c e).1
    simp only [step]
    rw [this]; exact f
  | receive op =>
    simp only [step]
    unfold Cgka.mergeConcurrentOperation
    split
    · exact f
    · split
      · exact f
      · split
        · split
          · exact f
          · split
            · exact f
            · split
              · exact f
              · rename_i h; exact applyOperation_fit f h
        · split
          · exact f
          · rename_i c1 hr
            have f1 := replayIfNeeded_fit f hr
            split
            · exact f1
            · rename_i h; exact applyOperation_fit f1 h

theorem reach_fit {H : SOp → Nat} {c : Cgka} (h : Reach H c) : HasFit c.tree := by
  induction h with
  | new _ hn => exact (new_fit (newFromInitAdd_frame hn).2.2.2.2.2.2.2.2).1
  | owner _ _ _ ih => exact ih
  | call _ _ ih => exact step_fit _ _ ih

end Verif.Cgka
