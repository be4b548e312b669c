import Verif.Cgka.Settle
import Verif.BeeKem.Packed

/-! # Helper lemmas: replaying additions and updates -/

namespace Verif.Cgka

open Verif.BeeKem BeeKem

/-- The number of additions. -/
def adds (l : List SOp) : Nat := l.countP (fun o => o.payload.isAdd)

theorem adds_append (a b : List SOp) : adds (a ++ b) = adds a + adds b := by simp [adds]

theorem adds_cons (o : SOp) (l : List SOp) : adds (o :: l) = (if o.payload.isAdd then 1 else 0) + adds l := by
  simp only [adds, List.countP_cons]
  omega

/-- No removals, and each update fits a tree with `n` leaves and one for each earlier addition. -/
def Flat (n : Nat) (l : List SOp) : Prop :=
  ∀ pre o post, l = pre ++ o :: post → (∀ id i ks ps, o.payload ≠ .remove id i ks ps) ∧
    ∀ id pc ps, o.payload = .update id pc ps → Fits pc (n + adds pre)

theorem Flat.tail {n : Nat} {o : SOp} {l : List SOp} (h : Flat n (o :: l)) :
    Flat (n + if o.payload.isAdd then 1 else 0) l := by
  intro pre o' post he
  obtain ⟨h1, h2⟩ := h (o :: pre) o' post (by rw [he]; rfl)
  refine ⟨h1, fun id pc ps hp => ?_⟩
  have := h2 id pc ps hp
  rw [adds_cons] at this
  rwa [Nat.add_assoc]

theorem Flat.append {n : Nat} {a b : List SOp} (h : Flat n (a ++ b)) : Flat n a ∧ Flat (n + adds a) b := by
  constructor
  · intro pre o post he
    exact h pre o (post ++ b) (by rw [he]; simp)
  · intro pre o post he
    obtain ⟨h1, h2⟩ := h (a ++ pre) o post (by rw [he]; simp)
    refine ⟨h1, fun id pc ps hp => ?_⟩
    have := h2 id pc ps hp
    rw [adds_append] at this
    rwa [Nat.add_assoc]

/-- The operations are distinct and not recorded yet. -/
def Fresh (H : SOp → Nat) (c : Cgka) (l : List SOp) : Prop := (l.map H).Nodup ∧ ∀ o ∈ l, AMap.get c.graph.ops (H o) = none

/-- What replaying additions and updates does from the leaf `b` on. -/
structure FlatRun (H : SOp → Nat) (b : Nat) (c c' : Cgka) (l : List SOp) (h' : Nat) : Prop where
  w : WInv c'.tree h'
  next : c'.tree.nextLeafIdx = c.tree.nextLeafIdx + adds l
  full : ∀ j, b ≤ j → j < c'.tree.nextLeafIdx → c'.tree.leafD j ≠ none
  keep : ∀ j lf, c.tree.leafD j = some lf → ∃ lf', c'.tree.leafD j = some lf' ∧ lf'.id = lf.id
  added : ∀ o ∈ l, ∀ id pk i ps qs, o.payload = .add id pk i ps qs →
    ∃ j lf, b ≤ j ∧ c'.tree.leafD j = some lf ∧ lf.id = id
  ops : ∀ x, AMap.get c'.graph.ops x ≠ none ↔ AMap.get c.graph.ops x ≠ none ∨ ∃ o ∈ l, x = H o

theorem treeOp_flat {t : BeeKem} {h b : Nat} (w : WInv t h) (hb : b ≤ t.nextLeafIdx)
    (hfull : ∀ j, b ≤ j → j < t.nextLeafIdx → t.leafD j ≠ none) {o : SOp}
    (hr : ∀ id i ks ps, o.payload ≠ .remove id i ks ps) (hf : ∀ id pc ps, o.payload = .update id pc ps → Fits pc t.nextLeafIdx) :
    ∃ t' h', treeOp t o = .ok t' ∧ WInv t' h' ∧ t'.nextLeafIdx = t.nextLeafIdx + (if o.payload.isAdd then 1 else 0) ∧
      (∀ j, b ≤ j → j < t'.nextLeafIdx → t'.leafD j ≠ none) ∧
      (∀ j lf, t.leafD j = some lf → ∃ lf', t'.leafD j = some lf' ∧ lf'.id = lf.id) ∧
      (∀ id pk i ps qs, o.payload = .add id pk i ps qs → ∃ j lf, b ≤ j ∧ t'.leafD j = some lf ∧ lf.id = id) := by
  cases hp : o.payload with
  | remove id i ks ps => exact absurd hp (hr id i ks ps)
  | add id pk i ps qs =>
    obtain ⟨t', h', e1, e2, e3, e4, e5, e6, -⟩ := pushLeaf_full w id (.share pk)
    refine ⟨t', h', ?_, e2, by simp [Payload.isAdd, e4], ?_, ?_, ?_⟩
    · unfold treeOp
      rw [hp]
      simp [e1, bind, Except.bind, pure, Except.pure]
    · intro j hj hj'
      rw [e6]
      split
      · simp
      · rename_i hne
        exact hfull j hj (by omega)
    · intro j lf hj
      rw [e6]
      split
      · rename_i he
        subst he
        rw [w.tail _ (Nat.le_refl _)] at hj
        simp at hj
      · exact ⟨lf, hj, rfl⟩
    · intro id' pk' i' ps' qs' he
      cases he
      exact ⟨t.nextLeafIdx, ⟨id, .share pk⟩, hb, by rw [e6, if_pos rfl], rfl⟩
  | update id pc ps =>
    obtain ⟨t', e1, e2, e3, e4, e5, -⟩ := applyPath_fits w (hf id pc ps hp)
    refine ⟨t', h, ?_, e2, by simp [Payload.isAdd, e4], ?_, e5, ?_⟩
    · unfold treeOp
      rw [hp]
      exact e1
    · intro j hj hj'
      rw [e4] at hj'
      have := hfull j hj hj'
      cases hl : t.leafD j with
      | none => exact absurd hl this
      | some lf =>
        obtain ⟨lf', h1, _⟩ := e5 j lf hl
        rw [h1]; simp
    · intro id' pk' i' ps' qs' he
      cases he

theorem applyOps_flat {H : SOp → Nat} {b : Nat} (l : List SOp) {c : Cgka} {h : Nat} (w : WInv c.tree h)
    (hb : b ≤ c.tree.nextLeafIdx) (hfull : ∀ j, b ≤ j → j < c.tree.nextLeafIdx → c.tree.leafD j ≠ none)
    (hd : Fresh H c l) (hf : Flat c.tree.nextLeafIdx l) :
    ∃ c' h', c.applyOps H l = .ok c' ∧ FlatRun H b c c' l h' := by
  induction l generalizing c h with
  | nil =>
    exact ⟨c, h, rfl, w, by simp [adds], hfull, fun j lf hj => ⟨lf, hj, rfl⟩, by simp, by simp⟩
  | cons o l ih =>
    obtain ⟨hr, hu⟩ := hf [] o l rfl
    obtain ⟨t', h', e1, e2, e3, e4, e5, e6⟩ := treeOp_flat w hb hfull hr (by simpa [adds] using hu)
    have hfr := hd.2 o (by simp)
    have hop : c.applyOperation H o = .ok { c with tree := t', graph := c.graph.addOp H o o.payload.preds } := by
      rw [applyOperation_eq hfr, e1]
      rfl
    have hg : ∀ x, AMap.get (c.graph.addOp H o o.payload.preds).ops x = if x = H o then some o else AMap.get c.graph.ops x := by
      intro x
      show AMap.get (AMap.insert c.graph.ops (H o) o) x = _
      rw [AMap.get_insert]
    have hd1 := hd.1
    rw [List.map_cons, List.nodup_cons] at hd1
    obtain ⟨c', h'', f1, f2⟩ := ih (c := { c with tree := t', graph := c.graph.addOp H o o.payload.preds }) e2
      (by show b ≤ t'.nextLeafIdx; omega) e4
      ⟨hd1.2, fun o' ho' => by
        show AMap.get (c.graph.addOp H o o.payload.preds).ops (H o') = none
        rw [hg, if_neg]
        · exact hd.2 o' (by simp [ho'])
        · intro he
          exact hd1.1 (he ▸ List.mem_map.2 ⟨o', ho', rfl⟩)⟩
      (by show Flat t'.nextLeafIdx l; rw [e3]; exact hf.tail)
    refine ⟨c', h'', ?_, f2.w, ?_, f2.full, ?_, ?_, ?_⟩
    · simp only [Cgka.applyOps, bind, Except.bind, hop]
      exact f1
    · rw [f2.next, adds_cons]
      show t'.nextLeafIdx + _ = _
      rw [e3]; omega
    · intro j lf hj
      obtain ⟨lf1, g1, g2⟩ := e5 j lf hj
      obtain ⟨lf2, g3, g4⟩ := f2.keep j lf1 g1
      exact ⟨lf2, g3, g4.trans g2⟩
    · intro o' ho' id pk i ps qs hp
      rcases List.mem_cons.1 ho' with rfl | ho'
      · obtain ⟨j, lf, g1, g2, g3⟩ := e6 id pk i ps qs hp
        obtain ⟨lf2, g4, g5⟩ := f2.keep j lf g2
        exact ⟨j, lf2, g1, g4, g5.trans g3⟩
      · exact f2.added o' ho' id pk i ps qs hp
    · intro x
      rw [f2.ops x]
      show AMap.get (c.graph.addOp H o o.payload.preds).ops x ≠ none ∨ _ ↔ _
      rw [hg]
      by_cases hx : x = H o
      · simp [hx]
      · simp [hx]

theorem removedIds_flat {n : Nat} {l : List SOp} (h : Flat n l) : Cgka.removedIds l = [] := by
  rw [List.eq_nil_iff_forall_not_mem]
  intro a ha
  unfold Cgka.removedIds at ha
  rw [mem_sextend] at ha
  rcases ha with ha | ha
  · simp at ha
  · obtain ⟨o, ho, hao⟩ := List.mem_filterMap.1 ha
    obtain ⟨pre, post, he⟩ := List.append_of_mem ho
    have := (h pre o post he).1
    cases hp : o.payload with
    | remove id i ks ps => exact absurd hp (this id i ks ps)
    | add => rw [hp] at hao; simp at hao
    | update => rw [hp] at hao; simp at hao

theorem applyEpoch_flat {H : SOp → Nat} {l : List SOp} {c : Cgka} {h : Nat} (w : WInv c.tree h)
    (hd : Fresh H c l) (hf : Flat c.tree.nextLeafIdx l) :
    ∃ c' h', c.applyEpoch H l = .ok c' ∧ WInv c'.tree h' ∧ c'.tree.nextLeafIdx = c.tree.nextLeafIdx + adds l ∧
      (∀ x, AMap.get c'.graph.ops x ≠ none ↔ AMap.get c.graph.ops x ≠ none ∨ ∃ o ∈ l, x = H o) := by
  obtain ⟨c1, h1, e1, f⟩ := applyOps_flat (b := c.tree.nextLeafIdx) l w (Nat.le_refl _) (by intro j hj hj'; omega) hd hf
  unfold Cgka.applyEpoch
  split
  · exact ⟨c1, h1, e1, f.w, f.next, f.ops⟩
  · rw [e1, removedIds_flat hf]
    obtain ⟨t', h', g1, g2, g3, g4, g5⟩ := sortLeaves_packed f.w (b := c.tree.nextLeafIdx) (by rw [f.next]; omega) f.full
      (Cgka.addedIds l) (by
        intro a ha
        unfold Cgka.addedIds at ha
        rw [mem_sextend] at ha
        rcases ha with ha | ha
        · simp at ha
        · obtain ⟨o, ho, hao⟩ := List.mem_filterMap.1 ha
          cases hp : o.payload with
          | add id pk i ps qs =>
            rw [hp] at hao
            simp only [Option.some.injEq] at hao
            subst hao
            exact f.added o ho _ pk i ps qs hp
          | remove => rw [hp] at hao; simp at hao
          | update => rw [hp] at hao; simp at hao)
    simp only [bind, Except.bind, g1]
    exact ⟨_, h', rfl, g3, by show t'.nextLeafIdx = _; rw [g4, f.next], f.ops⟩

theorem applyEpochs_flat {H : SOp → Nat} (es : List (List SOp)) {c : Cgka} {h : Nat} (w : WInv c.tree h)
    (hd : Fresh H c es.flatten) (hf : Flat c.tree.nextLeafIdx es.flatten) :
    ∃ c' h', c.applyEpochs H es = .ok c' ∧ WInv c'.tree h' ∧
      c'.tree.nextLeafIdx = c.tree.nextLeafIdx + adds es.flatten := by
  induction es generalizing c h with
  | nil => exact ⟨c, h, rfl, w, by simp [adds]⟩
  | cons e es ih =>
    rw [List.flatten_cons] at hd hf
    obtain ⟨f1, f2⟩ := hf.append
    have hd1 := hd.1
    rw [List.map_append, List.nodup_append] at hd1
    obtain ⟨c1, h1, e1, e2, e3, e4⟩ := applyEpoch_flat w (l := e) ⟨hd1.1, fun o ho => hd.2 o (by simp [ho])⟩ f1
    obtain ⟨c', h', g1, g2, g3⟩ := ih e2 ⟨hd1.2.1, fun o ho => by
      by_contra hc
      rcases (e4 _).1 hc with h2 | ⟨o', ho', he⟩
      · exact h2 (hd.2 o (by rw [List.mem_append]; exact .inr ho))
      · exact hd1.2.2 (H o') (List.mem_map.2 ⟨o', ho', rfl⟩) (H o) (List.mem_map.2 ⟨o, ho, rfl⟩) he.symm⟩ (by rw [e3]; exact f2)
    refine ⟨c', h', ?_, g2, ?_⟩
    · simp only [Cgka.applyEpochs, bind, Except.bind, e1]
      exact g1
    · rw [g3, e3, List.flatten_cons, adds_append]
      omega

end Verif.Cgka
