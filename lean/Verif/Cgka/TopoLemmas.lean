import Verif.Cgka.Topo
import Mathlib.Tactic.ByContra

/-! # Helper lemmas: the topological sort as a set-level specification -/

namespace Verif.Cgka

theorem get_orInsert_nil (m : AMap Nat (List Nat)) (k x : Nat) :
    AMap.get (AMap.orInsert m k []) x = if x = k then some ((AMap.get m k).getD []) else AMap.get m x := by
  rw [AMap.get_orInsert]
  by_cases hx : x = k
  · subst hx
    cases h : AMap.get m x <;> simp
  · simp [hx]

/-- `deps` and `rdeps` hold the edges `E` among the remaining nodes `N`. -/
structure PInv (t : TopoSort) (N : Nat → Prop) (E : Nat → Nat → Prop) : Prop where
  wf : AMap.WF t.deps
  node : ∀ x, AMap.get t.deps x ≠ none ↔ N x
  deps : ∀ x ds, AMap.get t.deps x = some ds → ∀ p, p ∈ ds ↔ E p x ∧ N p
  rdeps : ∀ x, N x → ∃ rs, AMap.get t.rdeps x = some rs ∧ ∀ y, y ∈ rs ↔ E x y
  rnode : ∀ x, N x ∨ AMap.get t.rdeps x = none

/-- Nodes touched by the edges `E`. -/
def Touched (E : Nat → Nat → Prop) (x : Nat) : Prop := (∃ p, E p x) ∨ ∃ y, E x y

theorem PInv.new : PInv TopoSort.new (Touched (fun _ _ => False)) (fun _ _ => False) := by
  refine ⟨AMap.wf_nil, ?_, ?_, ?_, ?_⟩
  · intro x; simp [TopoSort.new, Touched]
  · intro x ds h; simp [TopoSort.new] at h
  · rintro x (⟨_, h⟩ | ⟨_, h⟩) <;> exact h.elim
  · intro x; right; rfl

theorem PInv.addDependency {t : TopoSort} {E : Nat → Nat → Prop} (h : PInv t (Touched E) E) (a b : Nat) :
    PInv (t.addDependency a b) (Touched (fun p x => E p x ∨ (p = a ∧ x = b)))
      (fun p x => E p x ∨ (p = a ∧ x = b)) := by
  have hd : ∀ x, AMap.get (t.addDependency a b).deps x =
      if x = b then some (sinsert ((AMap.get (AMap.orInsert t.deps a []) b).getD []) a)
      else if x = a then some ((AMap.get t.deps a).getD []) else AMap.get t.deps x := by
    intro x
    simp only [TopoSort.addDependency]
    rw [AMap.get_insert]
    split
    · rfl
    · rw [get_orInsert_nil]
  have hr : ∀ x, AMap.get (t.addDependency a b).rdeps x =
      if x = a then some (sinsert ((AMap.get (AMap.orInsert t.rdeps b []) a).getD []) b)
      else if x = b then some ((AMap.get t.rdeps b).getD []) else AMap.get t.rdeps x := by
    intro x
    simp only [TopoSort.addDependency]
    rw [AMap.get_insert]
    split
    · rfl
    · rw [get_orInsert_nil]
  have hdm : ∀ x p, p ∈ (AMap.get t.deps x).getD [] ↔ E p x := by
    intro x p
    cases hg : AMap.get t.deps x with
    | none =>
      simp only [Option.getD_none, List.not_mem_nil, false_iff]
      intro he
      exact ((h.node x).2 (Or.inl ⟨p, he⟩)) hg
    | some ds =>
      simp only [Option.getD_some]
      rw [h.deps x ds hg p]
      exact ⟨fun h => h.1, fun he => ⟨he, Or.inr ⟨x, he⟩⟩⟩
  have hrm : ∀ x y, y ∈ (AMap.get t.rdeps x).getD [] ↔ E x y := by
    intro x y
    rcases h.rnode x with hx | hx
    · obtain ⟨rs, h1, h2⟩ := h.rdeps x hx
      rw [h1]; exact h2 y
    · rw [hx]
      simp only [Option.getD_none, List.not_mem_nil, false_iff]
      intro he
      obtain ⟨rs, h1, _⟩ := h.rdeps x (Or.inr ⟨y, he⟩)
      rw [hx] at h1; simp at h1
  have hob : ∀ p, p ∈ (AMap.get (AMap.orInsert t.deps a []) b).getD [] ↔ E p b := by
    intro p
    rw [get_orInsert_nil]
    split
    · rename_i hx
      subst hx
      exact hdm b p
    · exact hdm b p
  have hor : ∀ y, y ∈ (AMap.get (AMap.orInsert t.rdeps b []) a).getD [] ↔ E a y := by
    intro y
    rw [get_orInsert_nil]
    split
    · rename_i hx
      subst hx
      exact hrm a y
    · exact hrm a y
  refine ⟨?_, ?_, ?_, ?_, ?_⟩
  · exact AMap.wf_insert (AMap.wf_orInsert h.wf _ _) _ _
  · intro x
    rw [hd]
    by_cases h1 : x = b
    · subst h1
      simp only [if_true, ne_eq, reduceCtorEq, not_false_eq_true, true_iff]
      exact Or.inl ⟨a, Or.inr ⟨rfl, rfl⟩⟩
    · rw [if_neg h1]
      by_cases h2 : x = a
      · subst h2
        simp only [if_true, ne_eq, reduceCtorEq, not_false_eq_true, true_iff]
        exact Or.inr ⟨b, Or.inr ⟨rfl, rfl⟩⟩
      · rw [if_neg h2, h.node]
        unfold Touched
        simp [h1, h2]
  · intro x ds hg p
    rw [hd] at hg
    have key : p ∈ ds ↔ E p x ∨ (p = a ∧ x = b) := by
      by_cases h1 : x = b
      · subst h1
        rw [if_pos rfl] at hg
        simp only [Option.some.injEq] at hg
        subst hg
        rw [mem_sinsert, hob]
        simp [or_comm]
      · rw [if_neg h1] at hg
        by_cases h2 : x = a
        · subst h2
          rw [if_pos rfl] at hg
          simp only [Option.some.injEq] at hg
          subst hg
          rw [hdm]; simp [h1]
        · rw [if_neg h2] at hg
          have := hdm x p
          rw [hg] at this
          simp only [Option.getD_some] at this
          rw [this]; simp [h1]
    rw [key]
    exact ⟨fun he => ⟨he, Or.inr ⟨x, he⟩⟩, fun he => he.1⟩
  · intro x hx
    rw [hr]
    by_cases h1 : x = a
    · subst h1
      refine ⟨_, if_pos rfl, ?_⟩
      intro y
      rw [mem_sinsert, hor]
      simp [or_comm]
    · rw [if_neg h1]
      by_cases h2 : x = b
      · subst h2
        refine ⟨_, if_pos rfl, ?_⟩
        intro y
        rw [hrm]; simp [h1]
      · rw [if_neg h2]
        have : Touched E x := by
          rcases hx with ⟨p, hp | ⟨_, hp⟩⟩ | ⟨y, hy | ⟨hy, _⟩⟩
          · exact Or.inl ⟨p, hp⟩
          · exact absurd hp h2
          · exact Or.inr ⟨y, hy⟩
          · exact absurd hy h1
        obtain ⟨rs, g1, g2⟩ := h.rdeps x this
        refine ⟨rs, g1, ?_⟩
        intro y
        rw [g2]; simp [h1]
  · intro x
    rw [hr]
    by_cases h1 : x = a
    · subst h1
      exact Or.inl (Or.inr ⟨b, Or.inr ⟨rfl, rfl⟩⟩)
    · rw [if_neg h1]
      by_cases h2 : x = b
      · subst h2
        exact Or.inl (Or.inl ⟨a, Or.inr ⟨rfl, rfl⟩⟩)
      · rw [if_neg h2]
        rcases h.rnode x with h3 | h3
        · left
          rcases h3 with ⟨p, hp⟩ | ⟨y, hy⟩
          · exact Or.inl ⟨p, Or.inl hp⟩
          · exact Or.inr ⟨y, Or.inl hy⟩
        · exact Or.inr h3

/-! ## Popping -/

theorem foldl_dropDep {node : Nat} (l : List Nat) (m : AMap Nat (List Nat)) (hw : AMap.WF m) :
    AMap.WF (l.foldl (TopoSort.dropDep node) m) ∧
    ∀ x, AMap.get (l.foldl (TopoSort.dropDep node) m) x =
      if x ∈ l then (AMap.get m x).map (fun ds => sremove ds node) else AMap.get m x := by
  induction l generalizing m with
  | nil => simp [hw]
  | cons a l ih =>
    have hw1 : AMap.WF (TopoSort.dropDep node m a) := by
      unfold TopoSort.dropDep
      split
      · exact hw
      · exact AMap.wf_insert hw _ _
    have hg : ∀ x, AMap.get (TopoSort.dropDep node m a) x =
        if x = a then (AMap.get m x).map (fun ds => sremove ds node) else AMap.get m x := by
      intro x
      unfold TopoSort.dropDep
      split
      · rename_i h
        split
        · rename_i hx; subst hx; rw [h]; rfl
        · rfl
      · rename_i ds h
        rw [AMap.get_insert]
        split
        · rename_i hx; subst hx; rw [h]; rfl
        · rfl
    obtain ⟨h1, h2⟩ := ih _ hw1
    refine ⟨h1, ?_⟩
    intro x
    rw [List.foldl_cons, h2, hg]
    by_cases hxa : x = a
    · subst hxa
      simp only [if_true, List.mem_cons, true_or]
      split
      · cases AMap.get m x with
        | none => rfl
        | some ds => simp [sremove]
      · rfl
    · simp [hxa]

theorem PInv.popNode {t : TopoSort} {N : Nat → Prop} {E : Nat → Nat → Prop} (h : PInv t N E) {a : Nat}
    (ha : N a) : PInv (t.popNode a) (fun x => N x ∧ x ≠ a) E := by
  obtain ⟨rs, hrs, hrs'⟩ := h.rdeps a ha
  have hw : AMap.WF (AMap.erase t.deps a) := AMap.wf_erase h.wf a
  obtain ⟨w1, w2⟩ := foldl_dropDep (node := a) rs (AMap.erase t.deps a) hw
  have hpop : t.popNode a = ⟨rs.foldl (TopoSort.dropDep a) (AMap.erase t.deps a), AMap.erase t.rdeps a⟩ := by
    unfold TopoSort.popNode
    simp only [hrs]
  rw [hpop]
  have hget : ∀ x, AMap.get (rs.foldl (TopoSort.dropDep a) (AMap.erase t.deps a)) x =
      if x = a then none else if x ∈ rs then (AMap.get t.deps x).map (fun ds => sremove ds a) else AMap.get t.deps x := by
    intro x
    rw [w2, AMap.get_erase]
    by_cases hx : x = a
    · subst hx; simp
    · simp [hx]
  refine ⟨w1, ?_, ?_, ?_, ?_⟩
  · intro x
    simp only [hget]
    by_cases hx : x = a
    · simp [hx]
    · simp only [hx, if_false, ne_eq, not_false_eq_true, and_true]
      rw [← h.node]
      split
      · simp
      · rfl
  · intro x ds hg p
    simp only [hget] at hg
    by_cases hx : x = a
    · simp [hx] at hg
    · simp only [hx, if_false] at hg
      split at hg
      · cases hd : AMap.get t.deps x with
        | none => simp [hd] at hg
        | some ds0 =>
          simp only [hd, Option.map_some, Option.some.injEq] at hg
          subst hg
          rw [mem_sremove, h.deps x ds0 hd]
          constructor
          · rintro ⟨h1, h2, h3⟩; exact ⟨h2, h3, h1⟩
          · rintro ⟨h1, h2, h3⟩; exact ⟨h3, h1, h2⟩
      · rename_i hnx
        rw [h.deps x ds hg]
        constructor
        · rintro ⟨h1, h2⟩
          refine ⟨h1, h2, ?_⟩
          rintro rfl
          exact hnx ((hrs' x).2 h1)
        · rintro ⟨h1, h2, _⟩; exact ⟨h1, h2⟩
  · rintro x ⟨hx, hxa⟩
    obtain ⟨rs', g1, g2⟩ := h.rdeps x hx
    refine ⟨rs', ?_, g2⟩
    simp only
    rw [AMap.get_erase, if_neg hxa, g1]
  · intro x
    simp only
    rw [AMap.get_erase]
    by_cases hxa : x = a
    · right; rw [if_pos hxa]
    · rw [if_neg hxa]
      rcases h.rnode x with h1 | h1
      · exact Or.inl ⟨h1, hxa⟩
      · exact Or.inr h1

theorem PInv.congr {t : TopoSort} {N N' : Nat → Prop} {E : Nat → Nat → Prop} (h : PInv t N E)
    (hN : ∀ x, N x ↔ N' x) : PInv t N' E := by
  have : N = N' := funext fun x => propext (hN x)
  rw [← this]; exact h

theorem PInv.congrE {t : TopoSort} {N : Nat → Prop} {E E' : Nat → Nat → Prop} (h : PInv t N E)
    (hE : ∀ x y, E x y ↔ E' x y) : PInv t N E' := by
  have : E = E' := funext fun x => funext fun y => propext (hE x y)
  rw [← this]; exact h

theorem PInv.popNodes {t : TopoSort} {N : Nat → Prop} {E : Nat → Nat → Prop} (h : PInv t N E) (l : List Nat)
    (hl : ∀ x ∈ l, N x) (hn : l.Nodup) : PInv (l.foldl TopoSort.popNode t) (fun x => N x ∧ x ∉ l) E := by
  induction l generalizing t N with
  | nil => exact h.congr (by simp)
  | cons a l ih =>
    rw [List.nodup_cons] at hn
    have h1 := h.popNode (hl a (by simp))
    have h2 := ih h1 (fun x hx => ⟨hl x (List.mem_cons_of_mem _ hx), fun he => hn.1 (he ▸ hx)⟩) hn.2
    refine h2.congr ?_
    intro x
    simp only [List.mem_cons, not_or]
    exact and_assoc

theorem PInv.mem_ready {t : TopoSort} {N : Nat → Prop} {E : Nat → Nat → Prop} (h : PInv t N E) (x : Nat) :
    x ∈ t.ready ↔ N x ∧ ∀ p, E p x → ¬ N p := by
  unfold TopoSort.ready
  simp only [List.mem_map, List.mem_filter, Prod.exists, exists_and_right, exists_eq_right]
  constructor
  · rintro ⟨ds, h1, h2⟩
    have hg := AMap.get_of_mem h.wf h1
    have hds : ds = [] := by simpa using h2
    subst hds
    refine ⟨(h.node x).1 (by rw [hg]; simp), ?_⟩
    intro p hp hN
    have := (h.deps x [] hg p).2 ⟨hp, hN⟩
    simp at this
  · rintro ⟨h1, h2⟩
    cases hg : AMap.get t.deps x with
    | none => exact absurd hg ((h.node x).2 h1)
    | some ds =>
      refine ⟨ds, AMap.mem_of_get hg, ?_⟩
      cases ds with
      | nil => rfl
      | cons p ds =>
        have := (h.deps x _ hg p).1 (by simp)
        exact absurd this.2 (h2 p this.1)

theorem PInv.nodup_ready {t : TopoSort} {N : Nat → Prop} {E : Nat → Nat → Prop} (h : PInv t N E) :
    t.ready.Nodup := by
  unfold TopoSort.ready
  exact (List.filter_sublist.map _).nodup h.wf

theorem PInv.popAll {t : TopoSort} {N : Nat → Prop} {E : Nat → Nat → Prop} (h : PInv t N E) :
    PInv t.popAll.1 (fun x => N x ∧ x ∉ t.ready) E :=
  h.popNodes t.ready (fun x hx => ((h.mem_ready x).1 hx).1) h.nodup_ready

theorem PInv.isEmpty {t : TopoSort} {N : Nat → Prop} {E : Nat → Nat → Prop} (h : PInv t N E) :
    t.isEmpty = true ↔ ∀ x, ¬ N x := by
  unfold TopoSort.isEmpty
  constructor
  · intro he x hx
    have hd : t.deps = [] := by simpa using he
    have := (h.node x).2 hx
    rw [hd] at this
    exact this rfl
  · intro hN
    cases hd : t.deps with
    | nil => rfl
    | cons p l =>
      exfalso
      obtain ⟨k, v⟩ := p
      apply hN k
      rw [← h.node, hd]
      simp [AMap.get]

end Verif.Cgka
