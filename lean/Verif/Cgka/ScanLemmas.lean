import Verif.Cgka.Graph
import Verif.Cgka.TopoLemmas
import Mathlib.Data.List.Perm.Subperm
import Mathlib.Data.List.Perm.Lattice
import Mathlib.Logic.Relation

/-! # Helper lemmas: the backward scan of `topsort_for_heads` visits exactly the ancestors -/

namespace Verif.Cgka

open Verif.BeeKem

/-- `p` is recorded as a direct predecessor of `x`. -/
def Graph.Pred (g : Graph) (p x : Nat) : Prop := ∃ ps, AMap.get g.preds x = some ps ∧ p ∈ ps

/-- `x` is one of `heads` or an ancestor of one. -/
inductive Graph.Anc (g : Graph) (heads : List Nat) : Nat → Prop where
  | head {h : Nat} : h ∈ heads → Graph.Anc g heads h
  | step {x p : Nat} : Graph.Anc g heads x → g.Pred p x → Graph.Anc g heads p

/-- Every recorded predecessor is itself recorded. -/
def Graph.Closed (g : Graph) : Prop :=
  ∀ x ps, AMap.get g.preds x = some ps → ∀ p ∈ ps, AMap.get g.preds p ≠ none

/-- The predecessor relation has no cycles. -/
def Graph.Acyclic (g : Graph) : Prop := ∃ rank : Nat → Nat, ∀ p x, g.Pred p x → rank p < rank x

structure ScanInv (g : Graph) (heads Q : List Nat) (E : Nat → Nat → Prop) (s : Graph.Scan) : Prop where
  nodup : (Q ++ s.frontier).Nodup
  seen : ∀ x, x ∈ s.seen ↔ x ∈ Q ∨ x ∈ s.frontier
  hd : ∀ h ∈ heads, h ∈ s.seen
  anc : ∀ x ∈ s.seen, g.Anc heads x
  topo : PInv s.topo (Touched E) E
  skeys : ∀ x, AMap.get s.succs x ≠ none ↔ x ∈ heads ∨ ∃ y, E x y
  svals : ∀ x y, y ∈ (AMap.get s.succs x).getD [] ↔ E x y
  src : ∀ p x, E p x → p ∈ s.seen ∧ x ∈ Q

theorem ScanInv.pred {g : Graph} {heads Q : List Nat} {E : Nat → Nat → Prop} {s : Graph.Scan}
    (h : ScanInv g heads Q E s) {o p : Nat} (ho : o ∈ Q) (hp : g.Anc heads p) :
    ScanInv g heads Q (fun a x => E a x ∨ (a = p ∧ x = o)) (Graph.scanPred o s p) := by
  have ht := h.topo.addDependency p o
  have hget : ∀ x, AMap.get (AMap.insert (AMap.orInsert s.succs p []) p
      (sinsert ((AMap.get (AMap.orInsert s.succs p []) p).getD []) o)) x =
      if x = p then some (sinsert ((AMap.get s.succs p).getD []) o) else AMap.get s.succs x := by
    intro x
    rw [AMap.get_insert]
    by_cases hx : x = p
    · subst hx
      simp only [if_true]
      rw [get_orInsert_nil]; simp
    · rw [if_neg hx, if_neg hx, get_orInsert_nil, if_neg hx]
  have hk : ∀ x, AMap.get (AMap.insert (AMap.orInsert s.succs p []) p
      (sinsert ((AMap.get (AMap.orInsert s.succs p []) p).getD []) o)) x ≠ none ↔
      x ∈ heads ∨ ∃ y, (E x y ∨ (x = p ∧ y = o)) := by
    intro x
    rw [hget]
    by_cases hx : x = p
    · subst hx
      simp only [if_true, ne_eq, reduceCtorEq, not_false_eq_true, true_iff]
      exact Or.inr ⟨o, Or.inr ⟨trivial, rfl⟩⟩
    · rw [if_neg hx, h.skeys]
      simp [hx]
  have hv : ∀ x y, y ∈ (AMap.get (AMap.insert (AMap.orInsert s.succs p []) p
      (sinsert ((AMap.get (AMap.orInsert s.succs p []) p).getD []) o)) x).getD [] ↔
      E x y ∨ (x = p ∧ y = o) := by
    intro x y
    rw [hget]
    by_cases hx : x = p
    · subst hx
      simp only [if_true, Option.getD_some, true_and]
      rw [mem_sinsert, h.svals]
      exact or_comm
    · rw [if_neg hx, h.svals]
      simp [hx]
  unfold Graph.scanPred
  by_cases hs : p ∈ s.seen
  · simp only [hs, if_true]
    refine ⟨h.nodup, h.seen, h.hd, h.anc, ht, hk, hv, ?_⟩
    rintro a x (he | ⟨rfl, rfl⟩)
    · exact h.src a x he
    · exact ⟨hs, ho⟩
  · simp only [hs, if_false]
    refine ⟨?_, ?_, ?_, ?_, ht, hk, hv, ?_⟩
    · rw [← List.append_assoc]
      rw [List.nodup_append]
      refine ⟨h.nodup, by simp, ?_⟩
      intro a ha b hb
      simp only [List.mem_singleton] at hb
      subst hb
      rintro rfl
      apply hs
      rw [h.seen]
      exact List.mem_append.1 ha
    · intro x
      simp only [mem_sinsert, h.seen, List.mem_append, List.mem_singleton]
      constructor
      · rintro (h1 | h1 | h1)
        · exact Or.inr (Or.inr h1)
        · exact Or.inl h1
        · exact Or.inr (Or.inl h1)
      · rintro (h1 | h1 | h1)
        · exact Or.inr (Or.inl h1)
        · exact Or.inr (Or.inr h1)
        · exact Or.inl h1
    · intro x hx
      simp only [mem_sinsert]
      exact Or.inr (h.hd x hx)
    · intro x hx
      simp only [mem_sinsert] at hx
      rcases hx with rfl | hx
      · exact hp
      · exact h.anc x hx
    · rintro a x (he | ⟨rfl, rfl⟩)
      · simp only [mem_sinsert]
        exact ⟨Or.inr (h.src a x he).1, (h.src a x he).2⟩
      · simp only [mem_sinsert]
        exact ⟨Or.inl trivial, ho⟩

theorem ScanInv.congr {g : Graph} {heads Q : List Nat} {E E' : Nat → Nat → Prop} {s : Graph.Scan}
    (h : ScanInv g heads Q E s) (hE : ∀ x y, E x y ↔ E' x y) : ScanInv g heads Q E' s := by
  have : E = E' := funext fun x => funext fun y => propext (hE x y)
  rw [← this]; exact h

theorem ScanInv.preds {g : Graph} {heads Q : List Nat} {E : Nat → Nat → Prop} {s : Graph.Scan}
    (h : ScanInv g heads Q E s) {o : Nat} (ho : o ∈ Q) (ps : List Nat) (hp : ∀ p ∈ ps, g.Anc heads p) :
    ScanInv g heads Q (fun a x => E a x ∨ (a ∈ ps ∧ x = o)) (ps.foldl (Graph.scanPred o) s) := by
  induction ps generalizing E s with
  | nil => exact h.congr (by simp)
  | cons p ps ih =>
    have h1 := h.pred ho (hp p (by simp))
    refine (ih h1 (fun q hq => hp q (List.mem_cons_of_mem _ hq))).congr ?_
    intro x y
    simp only [List.mem_cons]
    constructor
    · rintro ((h1 | ⟨rfl, rfl⟩) | ⟨h1, h2⟩)
      · exact Or.inl h1
      · exact Or.inr ⟨Or.inl rfl, rfl⟩
      · exact Or.inr ⟨Or.inr h1, h2⟩
    · rintro (h1 | ⟨rfl | h1, h2⟩)
      · exact Or.inl (Or.inl h1)
      · exact Or.inl (Or.inr ⟨rfl, h2⟩)
      · exact Or.inr ⟨h1, h2⟩

theorem scanStart_inv (g : Graph) {heads : List Nat} (hn : heads.Nodup) :
    ScanInv g heads [] (fun _ _ => False) (Graph.scanStart heads) := by
  have hs : ∀ (l : List Nat) (m : AMap Nat (List Nat)) (x : Nat),
      AMap.get (l.foldl (fun m h => AMap.insert m h []) m) x = if x ∈ l then some [] else AMap.get m x := by
    intro l
    induction l with
    | nil => intro m x; simp
    | cons a l ih =>
      intro m x
      rw [List.foldl_cons, ih, AMap.get_insert]
      by_cases h1 : x ∈ l
      · simp [h1]
      · simp [h1]
  refine ⟨by simpa [Graph.scanStart] using hn, ?_, ?_, ?_, ?_, ?_, ?_, ?_⟩
  · intro x; simp [Graph.scanStart, mem_sextend]
  · intro x hx; simpa [Graph.scanStart, mem_sextend] using hx
  · intro x hx
    exact .head (by simpa [Graph.scanStart, mem_sextend] using hx)
  · exact PInv.new
  · intro x
    simp only [Graph.scanStart]
    rw [hs]
    by_cases hx : x ∈ heads <;> simp [hx]
  · intro x y
    simp only [Graph.scanStart]
    rw [hs]
    by_cases hx : x ∈ heads <;> simp [hx]
  · intro p x h; exact h.elim

theorem length_le_of_nodup_subset {l l' : List Nat} (hn : l.Nodup) (hs : ∀ x ∈ l, x ∈ l') :
    l.length ≤ l'.length := (List.subperm_of_subset hn hs).length_le

theorem anc_known {g : Graph} (hc : g.Closed) {heads : List Nat}
    (hh : ∀ h ∈ heads, AMap.get g.preds h ≠ none) {x : Nat} (hx : g.Anc heads x) : AMap.get g.preds x ≠ none := by
  induction hx with
  | head h => exact hh _ h
  | step _ h _ =>
    obtain ⟨ps, h1, h2⟩ := h
    exact hc _ ps h1 _ h2

theorem scanLoop_ok {g : Graph} (hc : g.Closed) {heads : List Nat}
    (hh : ∀ h ∈ heads, AMap.get g.preds h ≠ none) (fuel : Nat) (Q : List Nat) (s : Graph.Scan)
    (hi : ScanInv g heads Q (fun p x => x ∈ Q ∧ g.Pred p x) s) (hf : g.preds.length + 2 ≤ fuel + Q.length) :
    ∃ s' Q', Graph.scanLoop g fuel s = .ok s' ∧ ScanInv g heads Q' (fun p x => x ∈ Q' ∧ g.Pred p x) s' ∧
      s'.frontier = [] := by
  induction fuel generalizing Q s with
  | zero =>
    exfalso
    have h1 : Q.length ≤ (AMap.keys g.preds).length := by
      apply length_le_of_nodup_subset (List.nodup_append.1 hi.nodup).1
      intro x hx
      rw [AMap.mem_keys_iff]
      exact anc_known hc hh (hi.anc x ((hi.seen x).2 (Or.inl hx)))
    simp only [AMap.keys, List.length_map] at h1
    omega
  | succ fuel ih =>
    unfold Graph.scanLoop
    cases hfr : s.frontier with
    | nil => exact ⟨s, Q, rfl, hi, hfr⟩
    | cons o rest =>
      have hos : o ∈ s.seen := (hi.seen o).2 (Or.inr (by rw [hfr]; simp))
      have hoa := hi.anc o hos
      cases hg : AMap.get g.preds o with
      | none => exact absurd hg (anc_known hc hh hoa)
      | some ps =>
        simp only [hg]
        have hoQ : o ∉ Q := by
          intro hq
          have := hi.nodup
          rw [hfr, List.nodup_append] at this
          exact this.2.2 o hq o (by simp) rfl
        have h1 : ScanInv g heads (Q ++ [o]) (fun p x => x ∈ Q ∧ g.Pred p x) { s with frontier := rest } := by
          refine ⟨?_, ?_, hi.hd, hi.anc, hi.topo, hi.skeys, hi.svals, ?_⟩
          · have := hi.nodup
            rw [hfr] at this
            simpa using this
          · intro x
            simp only [hi.seen, hfr, List.mem_append, List.mem_cons, List.not_mem_nil, or_false, or_assoc]
          · intro p x he
            exact ⟨(hi.src p x he).1, List.mem_append.2 (Or.inl he.1)⟩
        have h2 := h1.preds (o := o) (by simp) ps (fun p hp => .step hoa ⟨ps, hg, hp⟩)
        refine ih (Q ++ [o]) _ (h2.congr ?_) (by simp; omega)
        intro x y
        simp only [List.mem_append, List.mem_singleton]
        constructor
        · rintro (⟨e1, e2⟩ | ⟨e1, rfl⟩)
          · exact ⟨Or.inl e1, e2⟩
          · exact ⟨Or.inr rfl, ps, hg, e1⟩
        · rintro ⟨e1 | rfl, e2⟩
          · exact Or.inl ⟨e1, e2⟩
          · obtain ⟨ps', g1, g2⟩ := e2
            rw [hg] at g1
            cases g1
            exact Or.inr ⟨g2, rfl⟩

/-- The edges the sort works on. -/
def Graph.Edge (g : Graph) (heads : List Nat) (p x : Nat) : Prop := g.Anc heads x ∧ g.Pred p x

theorem scan_ok {g : Graph} (hc : g.Closed) {heads : List Nat} (hn : heads.Nodup)
    (hh : ∀ h ∈ heads, AMap.get g.preds h ≠ none) :
    ∃ s, Graph.scanLoop g (g.preds.length + 2) (Graph.scanStart heads) = .ok s ∧
      PInv s.topo (Touched (g.Edge heads)) (g.Edge heads) ∧
      (∀ x, AMap.get s.succs x ≠ none ↔ g.Anc heads x) ∧
      ∀ x y, y ∈ (AMap.get s.succs x).getD [] ↔ g.Edge heads x y := by
  obtain ⟨s, Q, h1, h2, h3⟩ := scanLoop_ok hc hh (g.preds.length + 2) [] (Graph.scanStart heads)
    ((scanStart_inv g hn).congr (by simp)) (by simp)
  have hQ : ∀ x, x ∈ Q ↔ g.Anc heads x := by
    intro x
    have hse : ∀ y, y ∈ s.seen ↔ y ∈ Q := by intro y; rw [h2.seen, h3]; simp
    constructor
    · intro hx; exact h2.anc x ((hse x).2 hx)
    · intro hx
      induction hx with
      | head h => exact (hse _).1 (h2.hd _ h)
      | step _ hp ih => exact (hse _).1 (h2.src _ _ ⟨ih, hp⟩).1
  have hE : ∀ p x, (x ∈ Q ∧ g.Pred p x) ↔ g.Edge heads p x := by
    intro p x; rw [hQ]; rfl
  have hE' : (fun p x => x ∈ Q ∧ g.Pred p x) = g.Edge heads := funext fun p => funext fun x => propext (hE p x)
  rw [hE'] at h2
  refine ⟨s, h1, h2.topo, ?_, h2.svals⟩
  intro x
  rw [h2.skeys]
  constructor
  · rintro (h | ⟨y, h⟩)
    · exact .head h
    · exact .step h.1 h.2
  · intro h
    cases h with
    | head h => exact Or.inl h
    | step ha hp => exact Or.inr ⟨_, ha, hp⟩

end Verif.Cgka
