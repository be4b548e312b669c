import Verif.Cgka.CutOffLemmas

/-! # Helper lemmas: the key on a member's leaf is one that an operation for this member put there -/

namespace Verif.Cgka

open Verif.BeeKem Relation

theorem leaf_from {H : SOp → Nat} (hH : Function.Injective H) {w : Cgka} (hw : Trusted H w) (T : TogetherG w.graph) (hf : FreshG w.graph)
    (hl : w.graph.heads.length = 1) {id : MemberId} (hin : w.tree.containsId id = true) :
    ∃ s y o, w.tree.nodeKeyForId id = .ok (.share ⟨s⟩) ∧ AMap.get w.graph.ops y = some o ∧ o.payload.GivesTo id ∧ s ∈ o.payload.own := by
  have sw := reachOk_inv hH (trusted_ok hw)
  have hS : Safe w.graph w.tree := by
    obtain ⟨r, e1, e2⟩ := (sw.settled hl).rebuilt sw.graph (together_oneRoot hH hw T) (trusted_tidy hH hw) sw.root.1 (root_preds sw)
    have := safe_together hH hw T hf r e1
    rw [e2] at this
    exact this
  obtain ⟨h, wi, gd⟩ := joins_head hH hw T hl
  cases hi : AMap.get w.tree.idToLeafIdx id with
  | none => rw [BeeKem.contains_false.2 hi] at hin; cases hin
  | some i =>
    obtain ⟨l, h1, h2⟩ := wi.ids id i hi
    obtain ⟨s, hs⟩ := gd.single.1 i l h1
    obtain ⟨y, o, id', a1, a2, a3, a4, -⟩ := hS.leaf i s (has_leaf.2 ⟨l, h1, hs⟩)
    have : id' = id := by
      obtain ⟨l', b1, b2⟩ := wi.ids id' i a4
      rw [h1] at b1
      cases b1
      exact b2.symm.trans h2
    subst this
    refine ⟨s, y, o, ?_, a1, a2, a3⟩
    rw [← hs]
    have hlt := BeeKem.leafD_lt wi.shape (j := i) (by simp [h1])
    unfold BeeKem.nodeKeyForId BeeKem.leafIndexForId BeeKem.nodeKeyForIndex
    simp only [hi, bind, Except.bind]
    rw [BeeKem.leaf_ok wi.shape hlt, h1]

end Verif.Cgka
