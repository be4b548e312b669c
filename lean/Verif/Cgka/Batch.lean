import Verif.Cgka.FitInv
import Verif.BeeKem.FixUp

/-! # Helper lemmas: one batch of concurrent operations -/

namespace Verif.Cgka

open Verif.BeeKem Verif.TreeMath

theorem insertInnerNodeAt_next {t t' : BeeKem} {i : Nat} {s : SecretStore} (h : t.insertInnerNodeAt i s = .ok t') :
    t'.nextLeafIdx = t.nextLeafIdx := by
  unfold BeeKem.insertInnerNodeAt at h
  split at h
  · cases h; rfl
  · simp at h

theorem insertLeafAt_next {t t' : BeeKem} {i : Nat} {id : MemberId} {k : NodeKey}
    (h : t.insertLeafAt i id k = .ok t') : t'.nextLeafIdx = t.nextLeafIdx := by
  unfold BeeKem.insertLeafAt at h
  split at h
  · cases h; rfl
  · simp at h

theorem blankPathLoop_next {fuel : Nat} {t t' : BeeKem} {i : Nat} (h : BeeKem.blankPathLoop fuel t i = .ok t') :
    t'.nextLeafIdx = t.nextLeafIdx := by
  induction fuel generalizing t i with
  | zero => unfold BeeKem.blankPathLoop at h; cases h
  | succ n ih =>
    unfold BeeKem.blankPathLoop at h
    simp only [bind, Except.bind] at h
    have hb : ∀ {a b : BeeKem}, a.blankInnerNode i = .ok b → b.nextLeafIdx = a.nextLeafIdx := by
      intro a b h
      unfold BeeKem.blankInnerNode at h
      split at h
      · cases h; rfl
      · simp at h
    split at h
    · exact hb h
    · split at h
      · simp at h
      · rename_i t1 h1
        exact (ih h).trans (hb h1)

theorem applyPathLoop_next {removed : List Pk} {ps : List (Nat × SecretStore)} {t t' : BeeKem}
    (h : BeeKem.applyPathLoop removed t ps = .ok t') : t'.nextLeafIdx = t.nextLeafIdx := by
  induction ps generalizing t with
  | nil => cases h; rfl
  | cons p ps ih =>
    obtain ⟨i, s⟩ := p
    simp only [BeeKem.applyPathLoop, bind, Except.bind] at h
    cases hn : t.innerNode i with
    | error e => simp [hn] at h
    | ok o =>
      simp only [hn] at h
      cases o with
      | none =>
        simp only at h
        split at h
        · simp at h
        · rename_i t1 h1
          exact (ih h).trans (insertInnerNodeAt_next h1)
      | some cur =>
        simp only at h
        split at h
        · simp at h
        · rename_i t1 h1
          exact (ih h).trans (insertInnerNodeAt_next h1)

theorem applyPath_next {t t' : BeeKem} {pc : PathChange} (h : t.applyPath pc = .ok t') :
    t'.nextLeafIdx = t.nextLeafIdx := by
  unfold BeeKem.applyPath at h
  split at h
  · simp only [bind, Except.bind] at h
    split at h
    · simp at h
    · split at h
      · simp at h
      · split at h
        · simp at h
        · split at h
          · simp at h
          · split at h
            · simp at h
            · split at h
              · simp at h
              · rename_i t1 h1
                split at h
                · exact (applyPathLoop_next h).trans (insertLeafAt_next h1)
                · unfold BeeKem.blankPath at h
                  exact (blankPathLoop_next h).trans (insertLeafAt_next h1)
  · cases h; rfl

/-- An operation other than a removal never lowers the number of leaves in use, and an add raises it. -/
theorem treeOp_next {t t' : BeeKem} {op : SOp} (f : HasFit t) (h : treeOp t op = .ok t')
    (hnr : ∀ id l ks ps, op.payload ≠ .remove id l ks ps) :
    t.nextLeafIdx ≤ t'.nextLeafIdx ∧ (op.payload.isStructural = true → t'.nextLeafIdx ≠ 0) := by
  obtain ⟨k, f⟩ := f
  unfold treeOp at h
  split at h
  · rename_i id pk _ _ _ he
    simp only [bind, Except.bind] at h
    split at h
    · simp at h
    · rename_i p hp
      cases h
      obtain ⟨t1, h', e1, s1, _, h4, h5, _⟩ := BeeKem.pushLeaf_ok f.shape f.next id (.share pk)
      rw [hp] at e1
      cases e1
      exact ⟨by dsimp only; omega, fun _ => by dsimp only; omega⟩
  · rename_i he
    exact absurd he (hnr _ _ _ _)
  · rename_i he
    refine ⟨Nat.le_of_eq (applyPath_next h).symm, ?_⟩
    rw [he]
    simp [Payload.isStructural]

theorem applyOps_next {H : SOp → Nat} (hH : Function.Injective H) {l : List SOp} {c c' : Cgka} (f : HasFit c.tree)
    (hnr : ∀ o ∈ l, ∀ id i ks ps, o.payload ≠ .remove id i ks ps) (h : c.applyOps H l = .ok c') :
    c.tree.nextLeafIdx ≤ c'.tree.nextLeafIdx ∧
      ∀ op ∈ l, op.payload.isStructural = true → AMap.get c.graph.ops (H op) = none → c'.tree.nextLeafIdx ≠ 0 := by
  induction l generalizing c with
  | nil => cases h; exact ⟨Nat.le_refl _, by simp⟩
  | cons o l ih =>
    simp only [Cgka.applyOps, bind, Except.bind] at h
    split at h
    · simp at h
    · rename_i c1 h1
      have f1 := applyOperation_fit f h1
      obtain ⟨a1, a2⟩ := ih f1 (fun o ho => hnr o (List.mem_cons_of_mem _ ho)) h
      by_cases hk : AMap.get c.graph.ops (H o) = none
      · obtain ⟨ht, hg⟩ := applyOperation_tree hk h1
        obtain ⟨b1, b2⟩ := treeOp_next f ht (hnr o (by simp))
        refine ⟨Nat.le_trans b1 a1, ?_⟩
        intro op hop hs hn
        by_cases he : H op = H o
        · have := hH he
          subst this
          have := b2 hs
          omega
        · refine a2 op ?_ hs ?_
          · rcases List.mem_cons.1 hop with rfl | hop
            · exact absurd rfl he
            · exact hop
          · rw [hg]
            show AMap.get (AMap.insert c.graph.ops (H o) o) (H op) = none
            rw [AMap.get_insert, if_neg he]
            exact hn
      · unfold Cgka.applyOperation at h1
        rw [if_pos ((containsOpHash_iff _ _).2 hk)] at h1
        cases h1
        refine ⟨a1, ?_⟩
        intro op hop hs hn
        rcases List.mem_cons.1 hop with rfl | hop
        · exact absurd hn hk
        · exact a2 op hop hs hn

theorem mem_removedIds {e : List SOp} {o : SOp} {id : MemberId} {l : Nat} {ks : List Pk} {ps : List Nat} (ho : o ∈ e)
    (hp : o.payload = .remove id l ks ps) : (id, l) ∈ Cgka.removedIds e := by
  unfold Cgka.removedIds
  rw [mem_sextend]
  right
  rw [List.mem_filterMap]
  exact ⟨o, ho, by rw [hp]⟩

theorem mem_addedIds {e : List SOp} {o : SOp} {id : MemberId} {pk : Pk} {l : Nat} {ps as : List Nat} (ho : o ∈ e)
    (hp : o.payload = .add id pk l ps as) : id ∈ Cgka.addedIds e := by
  unfold Cgka.addedIds
  rw [mem_sextend]
  right
  rw [List.mem_filterMap]
  exact ⟨o, ho, by rw [hp]⟩

theorem rebuildStart_fit {H : SOp → Nat} {c s : Cgka} (h : c.rebuildStart H = .ok s) : HasFit s.tree := by
  unfold Cgka.rebuildStart at h
  simp only [bind, Except.bind] at h
  split at h
  · simp at h
  · rename_i r0 h0
    cases h
    exact (new_fit (newFromInitAdd_frame h0).2.2.2.2.2.2.2.2).1

/-- The fix-up after a batch of at least two operations that changes the membership. -/
theorem applyEpoch_batch {H : SOp → Nat} {r r' : Cgka} {e : List SOp} (h : r.applyEpoch H e = .ok r') (hl : 1 < e.length)
    {op : SOp} (hop : op ∈ e) (hs : op.payload.isStructural = true) :
    ∃ c1, r.applyOps H e = .ok c1 ∧ c1.tree.sortLeavesAndBlankPaths (Cgka.addedIds e) (Cgka.removedIds e) = .ok r'.tree := by
  unfold Cgka.applyEpoch at h
  rw [if_neg] at h
  · simp only [bind, Except.bind] at h
    split at h
    · simp at h
    · rename_i c1 h1
      split at h
      · simp at h
      · rename_i t ht
        cases h
        exact ⟨c1, h1, ht⟩
  · rintro (hc | hc)
    · omega
    · have := List.all_eq_true.1 hc op hop
      simp [hs] at this

end Verif.Cgka
