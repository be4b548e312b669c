import Verif.Group.HistoryLemmas
import Mathlib.Data.List.Nodup

/-! # Helper lemmas: the replay order is determined by the set of operations, when no delegation is revoked twice -/

namespace Verif.Group

variable {H : Op → Nat}

/-- Two tables with the same contents. -/
structure TEq (t t' : Table) : Prop where
  wf : AMap.WF t.ops
  wf' : AMap.WF t'.ops
  ops : ∀ k, AMap.get t.ops k = AMap.get t'.ops k
  rev : ∀ s, AMap.get t.revokedBy s = AMap.get t'.revokedBy s

namespace TEq

variable {t t' : Table}

theorem perm (h : TEq t t') : t.ops.Perm t'.ops := by
  refine (List.perm_ext_iff_of_nodup (List.Nodup.of_map Prod.fst h.wf) (List.Nodup.of_map Prod.fst h.wf')).2 ?_
  rintro ⟨k, op⟩
  rw [AMap.wf_iff_get h.wf, AMap.wf_iff_get h.wf', h.ops]

theorem sorted (h : TEq t t') : t.sorted = t'.sorted := by
  unfold Table.sorted
  have htr : ∀ a b c : Nat × Op, decide (a.1 ≤ b.1) = true → decide (b.1 ≤ c.1) = true → decide (a.1 ≤ c.1) = true := by
    intro a b c h1 h2
    simp only [decide_eq_true_eq] at *
    omega
  have htot : ∀ a b : Nat × Op, decide (a.1 ≤ b.1) = true ∨ decide (b.1 ≤ a.1) = true := by
    intro a b
    simp only [decide_eq_true_eq]
    omega
  refine List.Perm.eq_of_pairwise (le := fun x y => decide (x.1 ≤ y.1) = true) ?_
    (isort_pairwise htr htot _) (isort_pairwise htr htot _)
    (((isort_perm t.ops).trans h.perm).trans (isort_perm t'.ops).symm)
  rintro ⟨k, op⟩ ⟨k', op'⟩ h1 h2 h3 h4
  simp only [decide_eq_true_eq] at h3 h4
  have hk : k = k' := by omega
  subst hk
  have e1 := (AMap.wf_iff_get h.wf k op).1 (mem_isort.1 h1)
  have e2 := (AMap.wf_iff_get h.wf' k op').1 (mem_isort.1 h2)
  rw [h.ops, e2] at e1
  cases e1
  rfl

theorem get (h : TEq t t') : AMap.get t.ops = AMap.get t'.ops := funext h.ops

theorem contains (h : TEq t t') : AMap.contains t.ops = AMap.contains t'.ops := by
  funext k
  unfold AMap.contains
  rw [h.ops]

theorem succs (h : TEq t t') : t.succs H = t'.succs H := by
  funext op
  unfold Table.succs
  have hr : AMap.get t.revokedBy = AMap.get t'.revokedBy := funext h.rev
  rw [h.contains, hr]

theorem succsOf (h : TEq t t') : t.succsOf H = t'.succsOf H := by
  funext k
  unfold Table.succsOf
  rw [h.ops, h.succs]

theorem isRev (h : TEq t t') : t.isRev = t'.isRev := by
  funext k
  unfold Table.isRev
  rw [h.ops]

theorem revLe (h : TEq t t') : t.revLe = t'.revLe := by
  funext a b
  unfold Table.revLe Table.distance
  rw [h.ops, h.ops]

theorem adjacencies (h : TEq t t') : adjacencies H t = adjacencies H t' := by
  unfold Group.adjacencies
  rw [h.sorted, h.succs]

theorem drain (h : TEq t t') (n : Nat) (ts : Topsort) (out : List Nat) : drain H t n ts out = drain H t' n ts out := by
  induction n generalizing ts out with
  | zero => rfl
  | succ n ih =>
    unfold Group.drain requeue
    rw [h.isRev, h.revLe, h.succsOf]
    simp only [ih]

theorem order (h : TEq t t') : order H t = order H t' := by
  unfold Group.order
  rw [h.perm.length_eq, h.adjacencies, h.drain]

end TEq

theorem reverseTopsort_congr {ds ds' : List Dlg} {rs rs' : List Rev} (hc : NoClash H (ds.map Op.dlg ++ rs.map Op.rev))
    (hs : Sole (ds.map Op.dlg ++ rs.map Op.rev))
    (hb : ∀ op, Below (ds.map Op.dlg ++ rs.map Op.rev) op ↔ Below (ds'.map Op.dlg ++ rs'.map Op.rev) op) :
    reverseTopsort H ds rs = reverseTopsort H ds' rs' := by
  have hc' : NoClash H (ds'.map Op.dlg ++ rs'.map Op.rev) := fun a b ha hb' => hc a b ((hb a).2 ha) ((hb b).2 hb')
  have hf := collect_found H hc
  have hf' := collect_found H hc'
  have ht : TEq (collect H ds rs) (collect H ds' rs') := by
    refine ⟨hf.wf, hf'.wf, ?_, ?_⟩
    · intro k
      apply Option.ext
      intro op
      rw [hf.get, hf'.get, hb]
    · intro s
      cases h1 : AMap.get (collect H ds rs).revokedBy s with
      | none =>
        cases h2 : AMap.get (collect H ds' rs').revokedBy s with
        | none => rfl
        | some k =>
          obtain ⟨r, _, h3, h4⟩ := hf'.rev h2
          have := hf.revd ((hb _).2 h3)
          rw [h4] at this
          exact absurd h1 this
      | some k =>
        obtain ⟨r, e1, h3, h4⟩ := hf.rev h1
        cases h2 : AMap.get (collect H ds' rs').revokedBy s with
        | none =>
          have := hf'.revd ((hb _).1 h3)
          rw [h4] at this
          exact absurd h2 this
        | some k' =>
          obtain ⟨r', e2, h5, h6⟩ := hf'.rev h2
          have := hs r r' h3 ((hb _).2 h5) (by rw [h4, h6])
          rw [e1, e2, this]
  unfold reverseTopsort
  simp only
  rw [ht.order, ht.get]

end Verif.Group
