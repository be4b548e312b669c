import Verif.Cgka.FitInv
import Verif.Cgka.Order

/-! # Helper lemmas: add heads, and sorting the past of one operation inside a larger graph -/

namespace Verif.Cgka

open Verif.BeeKem

/-! ## Add heads -/

/-- What is listed as a latest add is an add; an add that no add builds on is listed. -/
structure AInv (g : Graph) : Prop where
  sound : ∀ x ∈ g.addHeads, ∃ o, AMap.get g.ops x = some o ∧ o.payload.isAdd = true
  full : ∀ x o, AMap.get g.ops x = some o → o.payload.isAdd = true →
    (∀ y o', AMap.get g.ops y = some o' → x ∉ o'.payload.addPreds) → x ∈ g.addHeads

theorem AInv.insert {H : SOp → Nat} {g g' : Graph} {op : SOp} (h : AInv g)
    (hf : AMap.get g.ops (H op) = none) (hops : g'.ops = AMap.insert g.ops (H op) op)
    (hh : ∀ x, x ∈ g'.addHeads ↔ (op.payload.isAdd = true ∧ x = H op) ∨ (x ∈ g.addHeads ∧ x ∉ op.payload.addPreds)) :
    AInv g' := by
  have hgo : ∀ x, AMap.get g'.ops x = if x = H op then some op else AMap.get g.ops x := by
    intro x; rw [hops, AMap.get_insert]
  constructor
  · intro x hx
    rw [hh] at hx
    rcases hx with ⟨ha, rfl⟩ | ⟨hx, _⟩
    · exact ⟨op, by rw [hgo, if_pos rfl], ha⟩
    · obtain ⟨o, ho, ha⟩ := h.sound x hx
      refine ⟨o, ?_, ha⟩
      rw [hgo, if_neg, ho]
      rintro rfl
      rw [hf] at ho
      simp at ho
  · intro x o hx ha hn
    rw [hh]
    rw [hgo] at hx
    split at hx
    · rename_i he
      cases hx
      exact Or.inl ⟨ha, he⟩
    · rename_i he
      refine Or.inr ⟨h.full x o hx ha ?_, hn (H op) op (by rw [hgo, if_pos rfl])⟩
      intro y o' hy
      refine hn y o' ?_
      rw [hgo, if_neg, hy]
      rintro rfl
      rw [hf] at hy
      simp at hy

theorem addPreds_nil {p : Payload} (h : ¬ p.isAdd = true) : p.addPreds = [] := by
  cases p <;> simp_all [Payload.isAdd, Payload.addPreds]

theorem GStep.ainv {H : SOp → Nat} (hH : Function.Injective H) {g g' : Graph} (hg : GInv H g) (h : AInv g)
    (hs : GStep H g g') : AInv g' := by
  cases hs with
  | same => exact h
  | @own op hp ha =>
    refine h.insert (hg.localFresh hH hp) rfl ?_
    intro x
    show x ∈ (if op.payload.isAdd = true then [H op] else g.addHeads) ↔ _
    by_cases hadd : op.payload.isAdd = true
    · rw [if_pos hadd]
      have := ha hadd x
      simp only [List.mem_singleton, hadd, true_and]
      constructor
      · exact Or.inl
      · rintro (h1 | ⟨h1, h2⟩)
        · exact h1
        · exact absurd (this.2 h1) h2
    · rw [if_neg hadd, addPreds_nil hadd]
      simp [hadd]
  | @recv op hf hk =>
    refine h.insert hf rfl ?_
    intro x
    show x ∈ (if op.payload.isAdd = true then sinsert (op.payload.addPreds.foldl sremove g.addHeads) (H op)
      else op.payload.addPreds.foldl sremove g.addHeads) ↔ _
    split
    · rename_i hadd
      rw [mem_sinsert, mem_foldl_sremove]
      simp [hadd]
    · rename_i hadd
      rw [mem_foldl_sremove]
      simp [hadd]

theorem reach_ainv {H : SOp → Nat} (hH : Function.Injective H) {c : Cgka} (h : Reach H c) : AInv c.graph := by
  induction h with
  | @new id pk op c hp hn =>
    have hf := newFromInitAdd_frame hn
    rw [hf.1]
    have hempty : AInv Graph.new := ⟨by intro x hx; simp [Graph.new] at hx, by intro x o hx; simp [Graph.new] at hx⟩
    refine hempty.insert (H := H) (op := op) rfl rfl ?_
    intro x
    show x ∈ (if op.payload.isAdd = true then [H op] else []) ↔ _
    have : op.payload.isAdd = true := by obtain ⟨n, ps, e⟩ := hp; rw [e]; rfl
    simp [this, Graph.new]
  | owner me sks _ ih => exact ih
  | call hr hc ih => exact (step_frame (H := H) _ _ hc).1.ainv hH (reach_inv hH hr).1 ih

/-! ## The past of one operation -/

/-- `g0` is part of `g`. -/
def Sub (g0 g : Graph) : Prop := ∀ x o, AMap.get g0.ops x = some o → AMap.get g.ops x = some o

theorem Sub.pred {H : SOp → Nat} {g0 g : Graph} (s : Sub g0 g) (h0 : GInv H g0) (h : GInv H g) {p x : Nat}
    (hx : AMap.get g0.ops x ≠ none) : g0.Pred p x ↔ g.Pred p x := by
  rw [h0.predOf, h.predOf]
  cases hg : AMap.get g0.ops x with
  | none => exact absurd hg hx
  | some o => rw [s x o hg]

theorem lookupAll_sub {g0 g : Graph} (s : Sub g0 g) (e : CgkaError) {l : List Nat} {os : List SOp}
    (h : g0.lookupAll e l = .ok os) : g.lookupAll e l = .ok os := by
  induction l generalizing os with
  | nil => exact h
  | cons a l ih =>
    unfold Graph.lookupAll at h ⊢
    cases ha : AMap.get g0.ops a with
    | none => simp [ha] at h
    | some o =>
      rw [s a o ha]
      simp only [ha, bind, Except.bind] at h ⊢
      cases hl : g0.lookupAll e l with
      | error x => simp [hl] at h
      | ok os' => rw [ih hl]; simpa [hl] using h

theorem lookupEpochs_sub {g0 g : Graph} (s : Sub g0 g) {l : List (List Nat)} {es : List (List SOp)}
    (h : g0.lookupEpochs l = .ok es) : g.lookupEpochs l = .ok es := by
  induction l generalizing es with
  | nil => exact h
  | cons a l ih =>
    unfold Graph.lookupEpochs at h ⊢
    simp only [bind, Except.bind] at h ⊢
    cases ha : g0.lookupAll .operationNotFound a with
    | error x => simp [ha] at h
    | ok os =>
      rw [lookupAll_sub s _ ha]
      simp only [ha] at h ⊢
      cases hl : g0.lookupEpochs l with
      | error x => simp [hl] at h
      | ok os' => rw [ih hl]; simpa [hl] using h

/-- Sorting the past of `x` gives the same result in any graph that contains that past. -/
theorem topsort_sub {H : SOp → Nat} {g0 g : Graph} (s : Sub g0 g) (h0 : GInv H g0) (h : GInv H g) {x : Nat}
    (hh : g0.heads = [x]) {es : List (List SOp)} (he : g0.topsortGraph = .ok es) : g.topsortForHeads [x] = .ok es := by
  have hk : ∀ {y}, g0.Anc [x] y → AMap.get g0.ops y ≠ none := by
    intro y hy
    rw [← hh] at hy
    exact (anc_all h0 y).1 hy
  have hanc : ∀ y, g0.Anc [x] y ↔ g.Anc [x] y := by
    intro y
    constructor
    · intro hy
      induction hy with
      | head hx => exact .head hx
      | step ha hp ih => exact .step ih ((s.pred h0 h (hk ha)).1 hp)
    · intro hy
      induction hy with
      | head hx => exact .head hx
      | step _ hp ih => exact .step ih ((s.pred h0 h (hk ih)).2 hp)
  have hx0 : AMap.get g0.ops x ≠ none := hk (.head (by simp))
  have hx : AMap.get g.ops x ≠ none := by
    cases hg : AMap.get g0.ops x with
    | none => exact absurd hg hx0
    | some o => rw [s x o hg]; simp
  have k0 : ∀ y ∈ [x], AMap.get g0.preds y ≠ none := by
    intro y hy; rw [List.mem_singleton.1 hy]; exact (h0.keys x).1 hx0
  have k1 : ∀ y ∈ [x], AMap.get g.preds y ≠ none := by
    intro y hy; rw [List.mem_singleton.1 hy]; exact (h.keys x).1 hx
  obtain ⟨a, ha, _, _⟩ := sortHashes_spec h0.closed h0.acyclic (heads := [x]) (by simp) k0 (by simp)
  obtain ⟨b, hb, _, _⟩ := sortHashes_spec h.closed h.acyclic (heads := [x]) (by simp) k1 (by simp)
  have hab : a = b := by
    refine sortHashes_det h0.closed h0.acyclic h.closed (by simp) (by simp) k0 k1 ?_ (Or.inr rfl) ha hb
    intro p y
    unfold Graph.Edge
    rw [← hanc]
    constructor
    · rintro ⟨h1, h2⟩; exact ⟨h1, (s.pred h0 h (hk h1)).1 h2⟩
    · rintro ⟨h1, h2⟩; exact ⟨h1, (s.pred h0 h (hk h1)).2 h2⟩
  subst hab
  unfold Graph.topsortGraph Graph.topsortForHeads at he
  rw [hh] at he
  unfold Graph.topsortForHeads
  simp only [ha, hb, bind, Except.bind] at he ⊢
  exact lookupEpochs_sub s he

/-- The secret obtained from the tree root depends on the tree and on the owner only. -/
theorem treeRoot_congr {c d : Cgka} (ht : c.tree = d.tree) (hi : c.ownerId = d.ownerId) (hs : c.ownerSks = d.ownerSks) :
    c.pcsKeyFromTreeRoot.map (·.2) = d.pcsKeyFromTreeRoot.map (·.2) := by
  unfold Cgka.pcsKeyFromTreeRoot
  rw [ht, hi, hs]
  cases d.tree.decryptTreeSecret d.ownerId d.ownerSks with
  | ok p => rfl
  | error e =>
    dsimp only
    split
    · rfl
    · split
      · cases d.tree.decryptTreeSecret MemberId.pub d.ownerSks <;> rfl
      · rfl

theorem treeRoot_sks {c c1 : Cgka} {k : Sk} (h : c.pcsKeyFromTreeRoot = .ok (c1, k)) :
    c.withNewOwner c.ownerId c1.ownerSks = c1 := by
  unfold Cgka.pcsKeyFromTreeRoot at h
  split at h
  · cases h; rfl
  · split at h
    · simp at h
    · split at h
      · simp only [bind, Except.bind] at h
        split at h
        · simp at h
        · cases h; rfl
      · simp at h

end Verif.Cgka
