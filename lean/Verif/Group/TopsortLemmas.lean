import Verif.Group.Topsort
import Mathlib.Tactic.ByContra

/-! # Helper lemmas about `Topsort` -/

namespace Verif.Group.Topsort

/-- Predecessors of a node. -/
def preds (t : Topsort) (b : Nat) : List Nat := (AMap.get t.deps b).getD []

/-- `x` is a tracked node. -/
def Node (t : Topsort) (x : Nat) : Prop := AMap.get t.deps x ≠ none

/-- `rdeps` knows every edge, and edges are between tracked nodes. -/
structure Inv (t : Topsort) : Prop where
  wf : AMap.WF t.deps
  node : ∀ {a b}, a ∈ t.preds b → t.Node a
  rdep : ∀ {a b}, a ∈ t.preds b → ∃ s, AMap.get t.rdeps a = some s ∧ b ∈ s

theorem node_of_pred {t : Topsort} {a b : Nat} (h : a ∈ t.preds b) : t.Node b := by
  unfold preds at h
  unfold Node
  intro hn
  rw [hn] at h
  simp at h

theorem Inv.new : Inv new := ⟨AMap.wf_nil, by intro a b h; simp [preds, Topsort.new] at h,
  by intro a b h; simp [preds, Topsort.new] at h⟩

theorem node_new (x : Nat) : ¬ new.Node x := by simp [Node, new]

theorem preds_new (x : Nat) : new.preds x = [] := rfl

theorem getD_orInsert (m : AMap Nat (List Nat)) (k x : Nat) :
    (AMap.get (AMap.orInsert m k []) x).getD [] = (AMap.get m x).getD [] := by
  rw [AMap.get_orInsert]
  split
  · rename_i h; rw [h.1, h.2]; rfl
  · rfl

theorem get_orInsert_ne_none (m : AMap Nat (List Nat)) (k x : Nat) :
    AMap.get (AMap.orInsert m k []) x ≠ none ↔ x = k ∨ AMap.get m x ≠ none := by
  rw [AMap.get_orInsert]
  by_cases h : x = k
  · subst h
    by_cases h2 : AMap.get m x = none <;> simp [h2]
  · simp [h]

theorem get_addTo (m : AMap Nat (List Nat)) (k x j : Nat) :
    AMap.get (addTo m k x) j = if j = k then some (sinsert ((AMap.get m k).getD []) x) else AMap.get m j := by
  unfold addTo; rw [AMap.get_insert]

/-! ## Adding -/

theorem node_addNode (t : Topsort) (n x : Nat) : (t.addNode n).Node x ↔ x = n ∨ t.Node x := by
  unfold Node addNode; exact get_orInsert_ne_none _ _ _

theorem preds_addNode (t : Topsort) (n x : Nat) : (t.addNode n).preds x = t.preds x := by
  unfold preds addNode; exact getD_orInsert _ _ _

theorem Inv.addNode {t : Topsort} (h : t.Inv) (n : Nat) : (t.addNode n).Inv := by
  refine ⟨AMap.wf_orInsert h.wf _ _, ?_, ?_⟩
  · intro a b hab
    rw [preds_addNode] at hab
    exact (node_addNode _ _ _).2 (Or.inr (h.node hab))
  · intro a b hab
    rw [preds_addNode] at hab
    obtain ⟨s, h1, h2⟩ := h.rdep hab
    refine ⟨s, ?_, h2⟩
    show AMap.get (AMap.orInsert t.rdeps n []) a = some s
    rw [AMap.get_orInsert, if_neg, h1]
    rintro ⟨rfl, h3⟩
    rw [h3] at h1; cases h1

theorem node_addDependency (t : Topsort) (a b x : Nat) :
    (t.addDependency a b).Node x ↔ x = a ∨ x = b ∨ t.Node x := by
  unfold Node addDependency
  show AMap.get (addTo _ _ _) x ≠ none ↔ _
  rw [get_addTo]
  by_cases h : x = b
  · simp [h]
  · rw [if_neg h, get_orInsert_ne_none]
    simp [h]

theorem mem_preds_addDependency (t : Topsort) (a b x y : Nat) :
    x ∈ (t.addDependency a b).preds y ↔ x ∈ t.preds y ∨ (x = a ∧ y = b) := by
  unfold preds addDependency
  show x ∈ (AMap.get (addTo _ _ _) y).getD [] ↔ _
  rw [get_addTo]
  by_cases h : y = b
  · subst h
    rw [if_pos rfl, Option.getD_some, mem_sinsert, getD_orInsert]
    simp [or_comm]
  · rw [if_neg h, getD_orInsert]
    simp [h]

theorem Inv.addDependency {t : Topsort} (h : t.Inv) (a b : Nat) : (t.addDependency a b).Inv := by
  refine ⟨AMap.wf_insert (AMap.wf_orInsert h.wf _ _) _ _, ?_, ?_⟩
  · intro x y hxy
    rw [node_addDependency]
    rcases (mem_preds_addDependency _ _ _ _ _).1 hxy with h1 | ⟨rfl, rfl⟩
    · exact Or.inr (Or.inr (h.node h1))
    · exact Or.inl rfl
  · intro x y hxy
    show ∃ s, AMap.get (addTo (AMap.orInsert t.rdeps b []) a b) x = some s ∧ y ∈ s
    rw [get_addTo]
    by_cases hx : x = a
    · rw [if_pos hx]
      refine ⟨_, rfl, ?_⟩
      rw [mem_sinsert, getD_orInsert]
      rcases (mem_preds_addDependency _ _ _ _ _).1 hxy with h1 | ⟨_, h2⟩
      · obtain ⟨s, h2, h3⟩ := h.rdep h1
        subst hx
        rw [h2]; exact Or.inr h3
      · exact Or.inl h2
    · rw [if_neg hx]
      rcases (mem_preds_addDependency _ _ _ _ _).1 hxy with h1 | ⟨h2, _⟩
      · obtain ⟨s, h2, h3⟩ := h.rdep h1
        refine ⟨s, ?_, h3⟩
        rw [AMap.get_orInsert, if_neg, h2]
        rintro ⟨rfl, h4⟩
        rw [h4] at h2; cases h2
      · exact absurd h2 hx

/-! ## Popping -/

theorem foldl_dropPred {node : Nat} (l : List Nat) (m : AMap Nat (List Nat)) (hw : AMap.WF m) :
    AMap.WF (l.foldl (dropPred node) m) ∧
    ∀ x, AMap.get (l.foldl (dropPred node) m) x =
      if x ∈ l then (AMap.get m x).map (fun ds => sremove ds node) else AMap.get m x := by
  induction l generalizing m with
  | nil => simp [hw]
  | cons a l ih =>
    have hw1 : AMap.WF (dropPred node m a) := by
      unfold dropPred
      split
      · exact hw
      · exact AMap.wf_insert hw _ _
    have hg : ∀ x, AMap.get (dropPred node m a) x =
        if x = a then (AMap.get m x).map (fun ds => sremove ds node) else AMap.get m x := by
      intro x
      unfold dropPred
      split
      · rename_i h
        split
        · rename_i hx; subst hx; rw [h]; rfl
        · rfl
      · rename_i ds h
        rw [AMap.get_insert]
        split
        · rename_i hx; subst hx; rw [h]; rfl
        · rfl
    obtain ⟨h1, h2⟩ := ih _ hw1
    refine ⟨h1, ?_⟩
    intro x
    rw [List.foldl_cons, h2, hg]
    by_cases hxa : x = a
    · subst hxa
      simp only [if_true, List.mem_cons, true_or]
      split
      · cases AMap.get m x with
        | none => rfl
        | some ds => simp [sremove]
      · rfl
    · simp [hxa]

/-- Popping a node removes it and its edges. -/
theorem popNode_spec {t : Topsort} (h : t.Inv) (n : Nat) :
    (t.popNode n).Inv ∧ (∀ x, (t.popNode n).Node x ↔ t.Node x ∧ x ≠ n) ∧
    ∀ a b, a ∈ (t.popNode n).preds b ↔ a ∈ t.preds b ∧ a ≠ n ∧ b ≠ n := by
  have hwe := AMap.wf_erase h.wf n
  have key : ∀ t' : Topsort, AMap.WF t'.deps → (∀ x, x ≠ n → AMap.get t'.rdeps x = AMap.get t.rdeps x) →
      (∀ x, AMap.get t'.deps x = if x = n then none
        else if n ∈ t.preds x then (AMap.get t.deps x).map (fun ds => sremove ds n) else AMap.get t.deps x) →
      t'.Inv ∧ (∀ x, t'.Node x ↔ t.Node x ∧ x ≠ n) ∧
      ∀ a b, a ∈ t'.preds b ↔ a ∈ t.preds b ∧ a ≠ n ∧ b ≠ n := by
    intro t' hw hr hd
    have hN : ∀ x, t'.Node x ↔ t.Node x ∧ x ≠ n := by
      intro x
      unfold Node
      rw [hd]
      by_cases hx : x = n
      · simp [hx]
      · simp only [hx, if_false, ne_eq, not_false_eq_true, and_true]
        split
        · simp
        · rfl
    have hP : ∀ a b, a ∈ t'.preds b ↔ a ∈ t.preds b ∧ a ≠ n ∧ b ≠ n := by
      intro a b
      show a ∈ (AMap.get t'.deps b).getD [] ↔ _
      rw [hd]
      by_cases hb : b = n
      · simp [hb]
      · rw [if_neg hb]
        by_cases hm : n ∈ t.preds b
        · rw [if_pos hm]
          unfold preds
          cases hg : AMap.get t.deps b with
          | none => simp
          | some ds =>
            simp only [Option.map_some, Option.getD_some, mem_sremove]
            simp [hb, and_comm]
        · rw [if_neg hm]
          constructor
          · intro ha
            refine ⟨ha, ?_, hb⟩
            rintro rfl
            exact hm ha
          · exact fun ha => ha.1
    refine ⟨⟨hw, ?_, ?_⟩, hN, hP⟩
    · intro a b hab
      obtain ⟨h1, h2, _⟩ := (hP a b).1 hab
      exact (hN a).2 ⟨h.node h1, h2⟩
    · intro a b hab
      obtain ⟨h1, h2, _⟩ := (hP a b).1 hab
      obtain ⟨s, h3, h4⟩ := h.rdep h1
      exact ⟨s, by rw [hr a h2, h3], h4⟩
  unfold popNode
  cases hr : AMap.get t.rdeps n with
  | none =>
    refine key _ hwe (fun _ _ => rfl) ?_
    intro x
    show AMap.get (AMap.erase t.deps n) x = _
    rw [AMap.get_erase]
    by_cases hx : x = n
    · simp [hx]
    · rw [if_neg hx, if_neg hx, if_neg]
      intro hm
      obtain ⟨s, h3, _⟩ := h.rdep hm
      rw [hr] at h3; cases h3
  | some succs =>
    obtain ⟨w1, w2⟩ := foldl_dropPred (node := n) succs (AMap.erase t.deps n) hwe
    refine key _ w1 ?_ ?_
    · intro x hx
      show AMap.get (AMap.erase t.rdeps n) x = _
      rw [AMap.get_erase, if_neg hx]
    · intro x
      show AMap.get (succs.foldl (dropPred n) (AMap.erase t.deps n)) x = _
      rw [w2, AMap.get_erase]
      by_cases hx : x = n
      · simp [hx]
      · rw [if_neg hx, if_neg hx]
        by_cases hm : n ∈ t.preds x
        · obtain ⟨s, h3, h4⟩ := h.rdep hm
          rw [hr] at h3; cases h3
          rw [if_pos h4, if_pos hm]
        · rw [if_neg hm]
          split
          · unfold preds at hm
            cases hg : AMap.get t.deps x with
            | none => rfl
            | some ds =>
              rw [hg] at hm
              simp only [Option.map_some, Option.some.injEq]
              unfold sremove
              rw [List.filter_eq_self]
              intro y hy
              simp only [decide_eq_true_eq]
              rintro rfl
              exact hm hy
          · rfl

theorem popNodes_spec {t : Topsort} (h : t.Inv) (l : List Nat) :
    (l.foldl popNode t).Inv ∧ (∀ x, (l.foldl popNode t).Node x ↔ t.Node x ∧ x ∉ l) ∧
    ∀ a b, a ∈ (l.foldl popNode t).preds b ↔ a ∈ t.preds b ∧ a ∉ l ∧ b ∉ l := by
  induction l generalizing t with
  | nil => exact ⟨h, by simp, by simp⟩
  | cons n l ih =>
    obtain ⟨h1, h2, h3⟩ := popNode_spec h n
    obtain ⟨i1, i2, i3⟩ := ih h1
    refine ⟨i1, ?_, ?_⟩
    · intro x
      rw [List.foldl_cons, i2, h2]
      simp [and_assoc]
    · intro a b
      rw [List.foldl_cons, i3, h3]
      simp only [List.mem_cons, not_or]
      constructor
      · rintro ⟨⟨h4, h5, h6⟩, h7, h8⟩; exact ⟨h4, ⟨h5, h7⟩, h6, h8⟩
      · rintro ⟨h4, ⟨h5, h7⟩, h6, h8⟩; exact ⟨⟨h4, h5, h6⟩, h7, h8⟩

theorem mem_ready {t : Topsort} (h : t.Inv) (x : Nat) : x ∈ t.ready ↔ t.Node x ∧ t.preds x = [] := by
  unfold ready
  rw [mem_isort]
  simp only [List.mem_map, List.mem_filter, Prod.exists, exists_and_right, exists_eq_right]
  unfold Node preds
  constructor
  · rintro ⟨ds, h1, h2⟩
    have hg := AMap.get_of_mem h.wf h1
    rw [hg]
    refine ⟨by simp, by simpa using h2⟩
  · rintro ⟨h1, h2⟩
    cases hg : AMap.get t.deps x with
    | none => exact absurd hg h1
    | some ds =>
      rw [hg] at h2
      exact ⟨ds, AMap.mem_of_get hg, by simpa using h2⟩

theorem nodup_ready {t : Topsort} (h : t.Inv) : t.ready.Nodup := by
  unfold ready
  exact (isort_perm _).nodup_iff.2 ((List.filter_sublist.map _).nodup h.wf)

theorem popFrontier_spec {t : Topsort} (h : t.Inv) :
    t.popFrontier.2.Inv ∧ (∀ x, t.popFrontier.2.Node x ↔ t.Node x ∧ x ∉ t.ready) ∧
    ∀ a b, a ∈ t.popFrontier.2.preds b ↔ a ∈ t.preds b ∧ a ∉ t.ready ∧ b ∉ t.ready :=
  popNodes_spec h t.ready

theorem isEmpty_iff (t : Topsort) : t.isEmpty = true ↔ ∀ x, ¬ t.Node x := by
  unfold isEmpty Node
  cases hd : t.deps with
  | nil => simp
  | cons p m =>
    obtain ⟨k, v⟩ := p
    simp only [List.isEmpty_cons, Bool.false_eq_true, false_iff, not_forall, not_not]
    exact ⟨k, by rw [AMap.get_cons]; simp⟩

end Verif.Group.Topsort
