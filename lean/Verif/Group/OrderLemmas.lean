import Verif.Group.Sort
import Verif.Group.TopsortLemmas
import Mathlib.Data.List.Nodup
import Mathlib.Data.List.Perm.Subperm
import Mathlib.Data.List.Perm.Lattice

/-! # Helper lemmas: the loop of `reverse_topsort` -/

namespace Verif.Group

open Topsort

variable {H : Op → Nat}

theorem addEdges_spec (d : Nat) {ts : Topsort} (h : ts.Inv) (l : List Nat) :
    (addEdges d ts l).Inv ∧
    (∀ x, (addEdges d ts l).Node x ↔ ts.Node x ∨ x ∈ l ∨ (x = d ∧ l ≠ [])) ∧
    ∀ a b, a ∈ (addEdges d ts l).preds b ↔ a ∈ ts.preds b ∨ (a = d ∧ b ∈ l) := by
  induction l generalizing ts with
  | nil => exact ⟨h, by simp [addEdges], by simp [addEdges]⟩
  | cons s l ih =>
    obtain ⟨i1, i2, i3⟩ := ih (h.addDependency d s)
    refine ⟨i1, ?_, ?_⟩
    · intro x
      show (addEdges d (ts.addDependency d s) l).Node x ↔ _
      rw [i2, node_addDependency]
      simp only [List.mem_cons, ne_eq, reduceCtorEq, not_false_eq_true, and_true]
      constructor
      · rintro ((h1 | h1 | h1) | h1 | ⟨h1, _⟩)
        · exact Or.inr (Or.inr h1)
        · exact Or.inr (Or.inl (Or.inl h1))
        · exact Or.inl h1
        · exact Or.inr (Or.inl (Or.inr h1))
        · exact Or.inr (Or.inr h1)
      · rintro (h1 | (h1 | h1) | h1)
        · exact Or.inl (Or.inr (Or.inr h1))
        · exact Or.inl (Or.inr (Or.inl h1))
        · exact Or.inr (Or.inl h1)
        · exact Or.inl (Or.inl h1)
    · intro a b
      show a ∈ (addEdges d (ts.addDependency d s) l).preds b ↔ _
      rw [i3, mem_preds_addDependency]
      simp only [List.mem_cons]
      constructor
      · rintro ((h1 | ⟨h1, h2⟩) | ⟨h1, h2⟩)
        · exact Or.inl h1
        · exact Or.inr ⟨h1, Or.inl h2⟩
        · exact Or.inr ⟨h1, Or.inr h2⟩
      · rintro (h1 | ⟨h1, h2 | h2⟩)
        · exact Or.inl (Or.inl h1)
        · exact Or.inl (Or.inr ⟨h1, h2⟩)
        · exact Or.inr ⟨h1, h2⟩

namespace Table

theorem mem_succs_key {t : Table} {op : Op} {b : Nat} (h : b ∈ t.succs H op) : b ∈ AMap.keys t.ops := by
  rw [← AMap.contains_iff]
  unfold succs at h
  rcases List.mem_append.1 h with h | h
  · exact (List.mem_filter.1 h).2
  · cases op with
    | rev r => simp at h
    | dlg d =>
      cases hp : d.proof with
      | none => simp [hp] at h
      | some p =>
        cases hg : AMap.get t.revokedBy p.sig with
        | none => simp [hp, hg] at h
        | some rd =>
          simp only [hp, hg] at h
          split at h
          · rename_i hc
            simp only [List.mem_cons, List.not_mem_nil, or_false] at h
            rw [h]; exact hc
          · simp at h

theorem mem_succsOf_key {t : Table} {a b : Nat} (h : b ∈ t.succsOf H a) : b ∈ AMap.keys t.ops := by
  unfold succsOf at h
  split at h
  · simp at h
  · exact mem_succs_key h

theorem key_of_succsOf {t : Table} {a b : Nat} (h : b ∈ t.succsOf H a) : a ∈ AMap.keys t.ops := by
  rw [AMap.mem_keys_iff]
  intro hn
  unfold succsOf at h
  rw [hn] at h
  simp at h

theorem mem_sorted {t : Table} {p : Nat × Op} : p ∈ t.sorted ↔ p ∈ t.ops := mem_isort

end Table

theorem adjacencies_aux (H : Op → Nat) (t : Table) (L : List (Nat × Op)) (hL : ∀ p ∈ L, AMap.get t.ops p.1 = some p.2)
    {ts : Topsort} (h : ts.Inv) (hN : ∀ x, ts.Node x → x ∈ AMap.keys t.ops) :
    let ts' := L.foldl (fun ts p => addEdges p.1 (ts.addNode p.1) (t.succs H p.2)) ts
    ts'.Inv ∧ (∀ x, ts'.Node x → x ∈ AMap.keys t.ops) ∧ (∀ x, ts.Node x → ts'.Node x) ∧ (∀ p ∈ L, ts'.Node p.1) ∧
    ∀ a b, a ∈ ts'.preds b ↔ a ∈ ts.preds b ∨ (b ∈ t.succsOf H a ∧ a ∈ L.map Prod.fst) := by
  induction L generalizing ts with
  | nil => exact ⟨h, hN, fun _ h => h, by simp, by simp⟩
  | cons p L ih =>
    obtain ⟨e1, e2, e3⟩ := addEdges_spec p.1 (h.addNode p.1) (t.succs H p.2)
    have hp := hL p (by simp)
    have hpk : p.1 ∈ AMap.keys t.ops := by rw [AMap.mem_keys_iff, hp]; simp
    have hs : t.succsOf H p.1 = t.succs H p.2 := by unfold Table.succsOf; rw [hp]
    obtain ⟨i1, i2, i3, i4, i5⟩ := ih (fun q hq => hL q (List.mem_cons_of_mem _ hq)) e1 (by
      intro x hx
      rw [e2, node_addNode] at hx
      rcases hx with (rfl | hx) | hx | ⟨rfl, _⟩
      · exact hpk
      · exact hN x hx
      · exact Table.mem_succs_key hx
      · exact hpk)
    refine ⟨i1, i2, ?_, ?_, ?_⟩
    · intro x hx
      refine i3 x ?_
      rw [e2, node_addNode]; exact Or.inl (Or.inr hx)
    · intro q hq
      rcases List.mem_cons.1 hq with rfl | hq
      · refine i3 _ ?_
        rw [e2, node_addNode]; exact Or.inl (Or.inl rfl)
      · exact i4 q hq
    · intro a b
      rw [List.foldl_cons, i5, e3, preds_addNode, ← hs]
      simp only [List.map_cons, List.mem_cons]
      constructor
      · rintro ((h1 | ⟨rfl, h1⟩) | ⟨h1, h2⟩)
        · exact Or.inl h1
        · exact Or.inr ⟨h1, Or.inl rfl⟩
        · exact Or.inr ⟨h1, Or.inr h2⟩
      · rintro (h1 | ⟨h1, rfl | h2⟩)
        · exact Or.inl (Or.inl h1)
        · exact Or.inl (Or.inr ⟨rfl, h1⟩)
        · exact Or.inr ⟨h1, h2⟩

/-- The graph built before the loop: every recorded operation, and the edges `succsOf`. -/
theorem adjacencies_spec (H : Op → Nat) {t : Table} (hw : AMap.WF t.ops) :
    (adjacencies H t).Inv ∧ (∀ x, (adjacencies H t).Node x ↔ x ∈ AMap.keys t.ops) ∧
    ∀ a b, a ∈ (adjacencies H t).preds b ↔ b ∈ t.succsOf H a := by
  obtain ⟨h1, h2, _, h4, h5⟩ := adjacencies_aux H t t.sorted
    (fun p hp => AMap.get_of_mem hw (Table.mem_sorted.1 hp)) Inv.new (fun x hx => absurd hx (node_new x))
  have hk : ∀ x, x ∈ AMap.keys t.ops → ∃ p ∈ t.sorted, p.1 = x := by
    intro x hx
    obtain ⟨p, hp, rfl⟩ := List.mem_map.1 hx
    exact ⟨p, Table.mem_sorted.2 hp, rfl⟩
  refine ⟨h1, ?_, ?_⟩
  · intro x
    refine ⟨h2 x, ?_⟩
    intro hx
    obtain ⟨p, hp, rfl⟩ := hk x hx
    exact h4 p hp
  · intro a b
    show a ∈ (t.sorted.foldl _ new).preds b ↔ _
    rw [h5, preds_new]
    constructor
    · rintro (h | h)
      · simp at h
      · exact h.1
    · intro h
      refine Or.inr ⟨h, ?_⟩
      obtain ⟨p, hp, rfl⟩ := hk a (Table.key_of_succsOf h)
      exact List.mem_map.2 ⟨p, hp, rfl⟩

/-- Position-free statement that a list pops every node after its predecessors: whatever precedes an element contains all of
its predecessors. -/
def Ordered (E : Nat → Nat → Prop) (out : List Nat) : Prop :=
  ∀ l b r, out = l ++ b :: r → ∀ a, E a b → a ∈ l

theorem Ordered.nil (E : Nat → Nat → Prop) : Ordered E [] := by
  intro l b r h; simp at h

theorem Ordered.closed {E : Nat → Nat → Prop} {out : List Nat} (h : Ordered E out) {a b : Nat} (hb : b ∈ out) (hab : E a b) :
    a ∈ out := by
  obtain ⟨l, r, rfl⟩ := List.append_of_mem hb
  exact List.mem_append_left _ (h l b r rfl a hab)

theorem Ordered.append {E : Nat → Nat → Prop} {out : List Nat} (h : Ordered E out) (new : List Nat)
    (hn : ∀ b ∈ new, ∀ a, E a b → a ∈ out) : Ordered E (out ++ new) := by
  intro l b r he a hab
  rcases List.append_eq_append_iff.1 he with ⟨l', rfl, h2⟩ | ⟨r', h1, h2⟩
  · have : b ∈ new := by rw [h2]; simp
    exact List.mem_append_left _ (hn b this a hab)
  · cases r' with
    | nil =>
      simp only [List.append_nil] at h1
      have h3 : b :: r = new := h2
      have : b ∈ new := by rw [← h3]; simp
      rw [← h1]; exact hn b this a hab
    | cons c r' =>
      simp only [List.cons_append, List.cons.injEq] at h2
      obtain ⟨rfl, h2⟩ := h2
      exact h l b r' h1 a hab

/-- Loop invariant: `ts` holds the operations not yet emitted, with their edges, and possibly extra edges between
operations whose predecessors are all emitted. -/
structure DInv (H : Op → Nat) (t : Table) (ts : Topsort) (out : List Nat) : Prop where
  inv : ts.Inv
  cover : ∀ x, x ∈ AMap.keys t.ops ↔ ts.Node x ∨ x ∈ out
  disj : ∀ x, ts.Node x → x ∉ out
  nodup : out.Nodup
  ordered : Ordered (fun a b => b ∈ t.succsOf H a) out
  base : ∀ a b, ts.Node a → ts.Node b → b ∈ t.succsOf H a → a ∈ ts.preds b
  extra : ∃ ρ : Nat → Nat, ∀ a b, a ∈ ts.preds b → b ∈ t.succsOf H a ∨
    ((∀ c, ts.Node c → a ∉ t.succsOf H c) ∧ (∀ c, ts.Node c → b ∉ t.succsOf H c) ∧ ρ a < ρ b)

theorem chain_spec {ts : Topsort} (h : ts.Inv) (l : List Nat) :
    (chain ts l).Inv ∧
    (∀ x, (chain ts l).Node x ↔ ts.Node x ∨ (2 ≤ l.length ∧ x ∈ l)) ∧
    ∀ a b, a ∈ (chain ts l).preds b ↔ a ∈ ts.preds b ∨ ∃ l1 l2, l = l1 ++ b :: a :: l2 := by
  induction l generalizing ts with
  | nil =>
    refine ⟨h, by simp [chain], ?_⟩
    intro a b
    simp [chain]
  | cons x l ih =>
    cases l with
    | nil =>
      refine ⟨h, by simp [chain], ?_⟩
      intro a b
      simp only [chain]
      constructor
      · exact Or.inl
      · rintro (h1 | ⟨l1, l2, h1⟩)
        · exact h1
        · have := congrArg List.length h1
          simp at this
          omega
    | cons y l =>
      obtain ⟨i1, i2, i3⟩ := ih (h.addDependency y x)
      refine ⟨i1, ?_, ?_⟩
      · intro z
        show (chain (ts.addDependency y x) (y :: l)).Node z ↔ _
        rw [i2, node_addDependency]
        simp only [List.length_cons, List.mem_cons]
        constructor
        · rintro ((h1 | h1 | h1) | ⟨_, h1⟩)
          · exact Or.inr ⟨by omega, Or.inr (Or.inl h1)⟩
          · exact Or.inr ⟨by omega, Or.inl h1⟩
          · exact Or.inl h1
          · exact Or.inr ⟨by omega, Or.inr h1⟩
        · rintro (h1 | ⟨_, h1 | h1 | h1⟩)
          · exact Or.inl (Or.inr (Or.inr h1))
          · exact Or.inl (Or.inr (Or.inl h1))
          · exact Or.inl (Or.inl h1)
          · refine Or.inr ⟨?_, Or.inr h1⟩
            have := List.length_pos_of_mem h1
            omega
      · intro a b
        show a ∈ (chain (ts.addDependency y x) (y :: l)).preds b ↔ _
        rw [i3, mem_preds_addDependency]
        constructor
        · rintro ((h1 | ⟨rfl, rfl⟩) | ⟨l1, l2, h1⟩)
          · exact Or.inl h1
          · exact Or.inr ⟨[], l, rfl⟩
          · exact Or.inr ⟨x :: l1, l2, by rw [h1]; rfl⟩
        · rintro (h1 | ⟨l1, l2, h1⟩)
          · exact Or.inl (Or.inl h1)
          · cases l1 with
            | nil =>
              simp only [List.nil_append, List.cons.injEq] at h1
              obtain ⟨rfl, rfl, _⟩ := h1
              exact Or.inl (Or.inr ⟨rfl, rfl⟩)
            | cons z l1 =>
              simp only [List.cons_append, List.cons.injEq] at h1
              exact Or.inr ⟨l1, l2, h1.2⟩

theorem requeueEdges_spec (H : Op → Nat) (t : Table) {ts : Topsort} (h : ts.Inv) (l : List Nat)
    (hs : ∀ r ∈ l, ∀ s ∈ t.succsOf H r, ts.Node s) (hl : ∀ r ∈ l, ts.Node r) :
    let ts' := l.foldl (fun ts r => addEdges r ts (t.succsOf H r)) ts
    ts'.Inv ∧ (∀ x, ts'.Node x ↔ ts.Node x) ∧
    ∀ a b, a ∈ ts'.preds b ↔ a ∈ ts.preds b ∨ (a ∈ l ∧ b ∈ t.succsOf H a) := by
  induction l generalizing ts with
  | nil => exact ⟨h, by simp, by simp⟩
  | cons r l ih =>
    obtain ⟨e1, e2, e3⟩ := addEdges_spec r h (t.succsOf H r)
    have hN : ∀ x, (addEdges r ts (t.succsOf H r)).Node x ↔ ts.Node x := by
      intro x
      rw [e2]
      constructor
      · rintro (h1 | h1 | ⟨rfl, _⟩)
        · exact h1
        · exact hs r (by simp) x h1
        · exact hl _ (by simp)
      · exact Or.inl
    obtain ⟨i1, i2, i3⟩ := ih e1
      (fun r' hr' s hs' => (hN s).2 (hs r' (List.mem_cons_of_mem _ hr') s hs'))
      (fun r' hr' => (hN r').2 (hl r' (List.mem_cons_of_mem _ hr')))
    refine ⟨i1, ?_, ?_⟩
    · intro x
      rw [List.foldl_cons, i2, hN]
    · intro a b
      rw [List.foldl_cons, i3, e3]
      simp only [List.mem_cons]
      constructor
      · rintro ((h1 | ⟨rfl, h1⟩) | ⟨h1, h2⟩)
        · exact Or.inl h1
        · exact Or.inr ⟨Or.inl rfl, h1⟩
        · exact Or.inr ⟨Or.inr h1, h2⟩
      · rintro (h1 | ⟨rfl | h1, h2⟩)
        · exact Or.inl (Or.inl h1)
        · exact Or.inl (Or.inr ⟨rfl, h2⟩)
        · exact Or.inr ⟨h1, h2⟩

theorem requeue_spec (H : Op → Nat) (t : Table) {ts : Topsort} (h : ts.Inv) (l : List Nat)
    (hs : ∀ r ∈ l, ∀ s ∈ t.succsOf H r, ts.Node s) :
    (requeue H t ts l).Inv ∧ (∀ x, (requeue H t ts l).Node x ↔ ts.Node x ∨ x ∈ l) ∧
    ∀ a b, a ∈ (requeue H t ts l).preds b ↔
      a ∈ ts.preds b ∨ (∃ l1 l2, l = l1 ++ b :: a :: l2) ∨ (a ∈ l ∧ b ∈ t.succsOf H a) := by
  have key : ∀ ts1 : Topsort, ts1.Inv → (∀ x, ts1.Node x ↔ ts.Node x ∨ x ∈ l) →
      (∀ a b, a ∈ ts1.preds b ↔ a ∈ ts.preds b ∨ ∃ l1 l2, l = l1 ++ b :: a :: l2) →
      let ts' := l.foldl (fun ts r => addEdges r ts (t.succsOf H r)) ts1
      ts'.Inv ∧ (∀ x, ts'.Node x ↔ ts.Node x ∨ x ∈ l) ∧
      ∀ a b, a ∈ ts'.preds b ↔
        a ∈ ts.preds b ∨ (∃ l1 l2, l = l1 ++ b :: a :: l2) ∨ (a ∈ l ∧ b ∈ t.succsOf H a) := by
    intro ts1 k1 k2 k3
    obtain ⟨r1, r2, r3⟩ := requeueEdges_spec H t k1 l
      (fun r hr s hs' => (k2 s).2 (Or.inl (hs r hr s hs'))) (fun r hr => (k2 r).2 (Or.inr hr))
    refine ⟨r1, fun x => by rw [r2, k2], ?_⟩
    intro a b
    rw [r3, k3, or_assoc]
  obtain ⟨c1, c2, c3⟩ := chain_spec h l
  unfold requeue
  match l, c1, c2, c3, key with
  | [], c1, c2, c3, key => exact key _ c1 (by simpa using c2) c3
  | [r], c1, c2, c3, key =>
    refine key _ (c1.addNode r) ?_ ?_
    · intro x
      rw [node_addNode, c2]
      simp [or_comm]
    · intro a b
      rw [preds_addNode, c3]
  | a :: b :: rest, c1, c2, c3, key =>
    refine key _ c1 ?_ c3
    intro x
    rw [c2]
    simp

/-- Rank used for a freshly added chain. -/
theorem chain_rank {l : List Nat} (hl : l.Nodup) (ρ : Nat → Nat) :
    ∃ ρ' : Nat → Nat, (∀ x, x ∉ l → ρ' x = ρ x) ∧ ∀ l1 a b l2, l = l1 ++ b :: a :: l2 → ρ' a < ρ' b := by
  refine ⟨fun x => if x ∈ l then l.length - l.idxOf x else ρ x, fun x hx => by simp [hx], ?_⟩
  intro l1 a b l2 h
  subst h
  have hb : b ∈ l1 ++ b :: a :: l2 := by simp
  have ha : a ∈ l1 ++ b :: a :: l2 := by simp
  simp only [ha, hb, if_true]
  have hnb : b ∉ l1 := by
    intro hm
    exact (List.disjoint_of_nodup_append hl) hm (by simp)
  have hna : a ∉ l1 := by
    intro hm
    exact (List.disjoint_of_nodup_append hl) hm (by simp)
  have hab : b ≠ a := by
    have := (List.nodup_append.1 hl).2.1
    rw [List.nodup_cons] at this
    intro he
    exact this.1 (by simp [he])
  rw [List.idxOf_append_of_notMem hna, List.idxOf_append_of_notMem hnb]
  rw [List.idxOf_cons_self, List.idxOf_cons_ne _ hab, List.idxOf_cons_self]
  simp only [List.length_append, List.length_cons]
  omega

/-- One turn emits `new`, possibly puts `rest` back. -/
theorem DInv.step {t : Table} {ts : Topsort} {out : List Nat} (h : DInv H t ts out) {new rest : List Nat}
    (hp : (new ++ rest).Perm ts.ready) : DInv H t (requeue H t ts.popFrontier.2 rest) (out ++ new) := by
  obtain ⟨p1, p2, p3⟩ := popFrontier_spec h.inv
  have hmem : ∀ x, x ∈ ts.ready ↔ x ∈ new ∨ x ∈ rest := fun x => by rw [← hp.mem_iff, List.mem_append]
  have hnd : (new ++ rest).Nodup := hp.nodup_iff.2 (nodup_ready h.inv)
  have hrd := fun x => mem_ready h.inv x
  have hdone : ∀ b ∈ ts.ready, ∀ a, b ∈ t.succsOf H a → a ∈ out := by
    intro b hb a hab
    rcases (h.cover a).1 (Table.key_of_succsOf hab) with h1 | h1
    · have := h.base a b h1 ((hrd b).1 hb).1 hab
      rw [((hrd b).1 hb).2] at this
      simp at this
    · exact h1
  have hs : ∀ r ∈ rest, ∀ s ∈ t.succsOf H r, ts.popFrontier.2.Node s := by
    intro r hr s hs
    have hrr := (hmem r).2 (Or.inr hr)
    have hrN := ((hrd r).1 hrr).1
    rw [p2]
    rcases (h.cover s).1 (Table.mem_succsOf_key hs) with h1 | h1
    · refine ⟨h1, ?_⟩
      intro hsr
      have := h.base r s hrN h1 hs
      rw [((hrd s).1 hsr).2] at this
      simp at this
    · exact absurd (h.ordered.closed h1 hs) (h.disj r hrN)
  obtain ⟨q1, q2, q3⟩ := requeue_spec H t p1 rest hs
  have hsub : ∀ x, (requeue H t ts.popFrontier.2 rest).Node x → ts.Node x := by
    intro x hx
    rcases (q2 x).1 hx with h1 | h1
    · exact ((p2 x).1 h1).1
    · exact ((hrd x).1 ((hmem x).2 (Or.inr h1))).1
  refine ⟨q1, ?_, ?_, ?_, ?_, ?_, ?_⟩
  · intro x
    rw [h.cover, q2, p2, List.mem_append]
    constructor
    · rintro (h1 | h1)
      · by_cases hr : x ∈ ts.ready
        · rcases (hmem x).1 hr with h2 | h2
          · exact Or.inr (Or.inr h2)
          · exact Or.inl (Or.inr h2)
        · exact Or.inl (Or.inl ⟨h1, hr⟩)
      · exact Or.inr (Or.inl h1)
    · rintro ((h1 | h1) | h1 | h1)
      · exact Or.inl h1.1
      · exact Or.inl ((hrd x).1 ((hmem x).2 (Or.inr h1))).1
      · exact Or.inr h1
      · exact Or.inl ((hrd x).1 ((hmem x).2 (Or.inl h1))).1
  · intro x hx
    rw [List.mem_append]
    rintro (h1 | h1)
    · exact h.disj x (hsub x hx) h1
    · rcases (q2 x).1 hx with h2 | h2
      · exact ((p2 x).1 h2).2 ((hmem x).2 (Or.inl h1))
      · exact (List.disjoint_of_nodup_append hnd) h1 h2
  · rw [List.nodup_append]
    refine ⟨h.nodup, (List.nodup_append.1 hnd).1, ?_⟩
    intro a ha b hb hab
    subst hab
    exact h.disj a ((hrd a).1 ((hmem a).2 (Or.inl hb))).1 ha
  · exact h.ordered.append new (fun b hb a hab => hdone b ((hmem b).2 (Or.inl hb)) a hab)
  · intro a b ha hb hab
    rw [q3]
    rcases (q2 b).1 hb with h1 | h1
    · rcases (q2 a).1 ha with h2 | h2
      · left
        rw [p3]
        exact ⟨h.base a b ((p2 a).1 h2).1 ((p2 b).1 h1).1 hab, ((p2 a).1 h2).2, ((p2 b).1 h1).2⟩
      · exact Or.inr (Or.inr ⟨h2, hab⟩)
    · exact absurd (hdone b ((hmem b).2 (Or.inr h1)) a hab) (h.disj a (hsub a ha))
  · obtain ⟨ρ, hρ⟩ := h.extra
    obtain ⟨ρ', r1, r2⟩ := chain_rank (List.nodup_append.1 hnd).2.1 ρ
    refine ⟨ρ', ?_⟩
    intro a b hab
    rcases (q3 a b).1 hab with h1 | ⟨l1, l2, h1⟩ | ⟨_, h1⟩
    · obtain ⟨h2, h3, h4⟩ := (p3 a b).1 h1
      rcases hρ a b h2 with h5 | ⟨h5, h6, h7⟩
      · exact Or.inl h5
      · right
        refine ⟨fun c hc => h5 c (hsub c hc), fun c hc => h6 c (hsub c hc), ?_⟩
        rw [r1 a (fun hm => h3 ((hmem a).2 (Or.inr hm))), r1 b (fun hm => h4 ((hmem b).2 (Or.inr hm)))]
        exact h7
    · right
      have ha : a ∈ rest := by rw [h1]; simp
      have hb : b ∈ rest := by rw [h1]; simp
      refine ⟨?_, ?_, r2 l1 a b l2 h1⟩
      · intro c hc hac
        exact h.disj c (hsub c hc) (hdone a ((hmem a).2 (Or.inr ha)) c hac)
      · intro c hc hac
        exact h.disj c (hsub c hc) (hdone b ((hmem b).2 (Or.inr hb)) c hac)
    · exact Or.inl h1

/-- With an acyclic graph there is always an operation to pop. -/
theorem DInv.progress {t : Table} {ts : Topsort} {out : List Nat} (h : DInv H t ts out) {β : Nat → Nat}
    (hβ : ∀ a b, b ∈ t.succsOf H a → β a < β b) {x : Nat} (hx : ts.Node x) : ts.ready ≠ [] := by
  obtain ⟨ρ, hρ⟩ := h.extra
  have hmin : ∀ n x, β x ≤ n → ts.Node x → ∃ y, ts.Node y ∧ ∀ c, ts.Node c → y ∉ t.succsOf H c := by
    intro n
    induction n with
    | zero =>
      intro x h0 hx
      refine ⟨x, hx, ?_⟩
      intro c _ hc'
      have := hβ c x hc'
      omega
    | succ n ih =>
      intro x h0 hx
      by_cases hc : ∃ c, ts.Node c ∧ x ∈ t.succsOf H c
      · obtain ⟨c, hc1, hc2⟩ := hc
        have := hβ c x hc2
        exact ih c (by omega) hc1
      · exact ⟨x, hx, fun c hc1 hc2 => hc ⟨c, hc1, hc2⟩⟩
  obtain ⟨y, hy1, hy2⟩ := hmin (β x) x (Nat.le_refl _) hx
  have hmin2 : ∀ n y, ρ y ≤ n → ts.Node y → (∀ c, ts.Node c → y ∉ t.succsOf H c) →
      ∃ z, ts.Node z ∧ ts.preds z = [] := by
    intro n
    induction n with
    | zero =>
      intro y h0 hy1 hy2
      refine ⟨y, hy1, ?_⟩
      cases hp : ts.preds y with
      | nil => rfl
      | cons a l =>
        have ha : a ∈ ts.preds y := by rw [hp]; simp
        rcases hρ a y ha with h5 | ⟨_, _, h7⟩
        · exact absurd h5 (hy2 a (h.inv.node ha))
        · omega
    | succ n ih =>
      intro y h0 hy1 hy2
      cases hp : ts.preds y with
      | nil => exact ⟨y, hy1, hp⟩
      | cons a l =>
        have ha : a ∈ ts.preds y := by rw [hp]; simp
        rcases hρ a y ha with h5 | ⟨h5, _, h7⟩
        · exact absurd h5 (hy2 a (h.inv.node ha))
        · exact ih a (by omega) (h.inv.node ha) h5
  obtain ⟨z, hz1, hz2⟩ := hmin2 (ρ y) y (Nat.le_refl _) hy1 hy2
  intro he
  have := (mem_ready h.inv z).2 ⟨hz1, hz2⟩
  rw [he] at this
  simp at this

theorem filter_perm_append {α : Type} (p : α → Bool) (l : List α) :
    (l.filter (fun x => !p x) ++ l.filter p).Perm l := by
  have := (List.filter_append_perm (fun x => !p x) l)
  simpa using this

/-- A turn of the loop in one formula. -/
theorem drain_turn (H : Op → Nat) (t : Table) (n : Nat) (ts : Topsort) (out : List Nat) (he : ts.isEmpty = false)
    (hr : ts.ready ≠ []) : ∃ new rest, new ≠ [] ∧ (new ++ rest).Perm ts.ready ∧
      drain H t (n + 1) ts out = drain H t n (requeue H t ts.popFrontier.2 rest) (out ++ new) := by
  have hb : ts.popFrontier.1 = ts.ready := rfl
  have hne : ts.ready.isEmpty = false := by simpa using hr
  have hperm := filter_perm_append t.isRev ts.ready
  have hso := isort_perm (le := fun a b => decide (a ≤ b)) (ts.ready.filter (fun d => !t.isRev d))
  have hsr := isort_perm (le := t.revLe) (ts.ready.filter t.isRev)
  conv => enter [1, new, 1, rest]; rw [drain]
  simp only [he, hb, hne, Bool.false_eq_true, if_false]
  cases hi : isort t.revLe (ts.ready.filter t.isRev) with
  | nil =>
    rw [hi] at hsr
    refine ⟨isort (fun a b => decide (a ≤ b)) (ts.ready.filter (fun d => !t.isRev d)), [], ?_, ?_, rfl⟩
    · intro h0
      rw [h0] at hso
      rw [← hso.nil_eq, ← hsr.nil_eq] at hperm
      exact hr hperm.nil_eq.symm
    · rw [List.append_nil]
      rw [← hsr.nil_eq, List.append_nil] at hperm
      exact hso.trans hperm
  | cons r l =>
    rw [hi] at hsr
    cases l with
    | nil =>
      refine ⟨isort (fun a b => decide (a ≤ b)) (ts.ready.filter (fun d => !t.isRev d)) ++ [r], [], by simp, ?_, ?_⟩
      · rw [List.append_nil]
        exact (hso.append hsr).trans hperm
      · simp [requeue, chain, List.append_assoc]
    | cons r2 l =>
      refine ⟨isort (fun a b => decide (a ≤ b)) (ts.ready.filter (fun d => !t.isRev d)) ++ [r], r2 :: l, by simp, ?_, ?_⟩
      · rw [List.append_assoc]
        exact (hso.append hsr).trans hperm
      · simp [List.append_assoc]

theorem drain_spec (H : Op → Nat) {t : Table} (_hw : AMap.WF t.ops) (n : Nat) {ts : Topsort} {out : List Nat}
    (h : DInv H t ts out) (hn : t.ops.length ≤ n + out.length) :
    (drain H t n ts out).Nodup ∧ (∀ x ∈ drain H t n ts out, x ∈ AMap.keys t.ops) ∧
    Ordered (fun a b => b ∈ t.succsOf H a) (drain H t n ts out) ∧
    (∀ β : Nat → Nat, (∀ a b, b ∈ t.succsOf H a → β a < β b) → ∀ x ∈ AMap.keys t.ops, x ∈ drain H t n ts out) := by
  induction n generalizing ts out with
  | zero =>
    refine ⟨h.nodup, fun x hx => (h.cover x).2 (Or.inr hx), h.ordered, ?_⟩
    intro _ _ x hx
    have hsub : out ⊆ AMap.keys t.ops := fun x hx => (h.cover x).2 (Or.inr hx)
    have hsp := List.subperm_of_subset h.nodup hsub
    have hlen : (AMap.keys t.ops).length ≤ out.length := by
      unfold AMap.keys; rw [List.length_map]; omega
    exact (hsp.perm_of_length_le hlen).mem_iff.2 hx
  | succ n ih =>
    by_cases he : ts.isEmpty = true
    · have hd : drain H t (n + 1) ts out = out := by rw [drain]; simp [he]
      rw [hd]
      refine ⟨h.nodup, fun x hx => (h.cover x).2 (Or.inr hx), h.ordered, ?_⟩
      intro _ _ x hx
      rcases (h.cover x).1 hx with h1 | h1
      · exact absurd h1 ((isEmpty_iff ts).1 he x)
      · exact h1
    · have he' : ts.isEmpty = false := by simpa using he
      by_cases hr : ts.ready = []
      · have hd : drain H t (n + 1) ts out = out := by
          rw [drain]
          have : ts.popFrontier.1 = [] := hr
          simp [he', this]
        rw [hd]
        refine ⟨h.nodup, fun x hx => (h.cover x).2 (Or.inr hx), h.ordered, ?_⟩
        intro β hβ x hx
        rcases (h.cover x).1 hx with h1 | h1
        · exact absurd hr (h.progress hβ h1)
        · exact h1
      · obtain ⟨new, rest, h1, h2, h3⟩ := drain_turn H t n ts out he' hr
        rw [h3]
        refine ih (h.step h2) ?_
        rw [List.length_append]
        have := List.length_pos_iff.2 h1
        omega

/-- The emitted digests: no repetition, only recorded operations, every operation after all operations that must be popped
before it, and all of them if the graph is acyclic. -/
theorem order_spec (H : Op → Nat) {t : Table} (hw : AMap.WF t.ops) :
    (order H t).Nodup ∧ (∀ x ∈ order H t, x ∈ AMap.keys t.ops) ∧
    Ordered (fun a b => b ∈ t.succsOf H a) (order H t) ∧
    (∀ β : Nat → Nat, (∀ a b, b ∈ t.succsOf H a → β a < β b) → ∀ x ∈ AMap.keys t.ops, x ∈ order H t) := by
  obtain ⟨a1, a2, a3⟩ := adjacencies_spec H hw
  refine drain_spec H hw _ ⟨a1, ?_, by simp, List.nodup_nil, Ordered.nil _, ?_, ?_⟩ (by simp)
  · intro x; rw [a2]; simp
  · intro a b _ _ h; exact (a3 a b).2 h
  · exact ⟨fun _ => 0, fun a b h => Or.inl ((a3 a b).1 h)⟩

end Verif.Group
