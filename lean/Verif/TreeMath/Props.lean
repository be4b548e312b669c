import Verif.TreeMath.Lemmas

/-!
# Properties C01–C03: navigation in the ratchet tree

Everything is stated with the navigation functions of the API only (`parent`, `left`, `right`,
`sibling`, `root`, `directPath`, `isNodeInTree`, `TreeSize.*`), for trees of every size the code
can build.
-/

namespace Verif.TreeMath

/-- Specification: a tree size the code can produce — the initial one from `TreeSize::new` and any
number of doublings by `TreeSize::inc`. -/
inductive ValidSize : Nat → Prop
  | new (n : Nat) : ValidSize (TreeSize.new n)
  | inc {s : Nat} : ValidSize s → ValidSize (TreeSize.inc s)

/-- Every size the code can produce has the form `2^(h+1) - 1`. -/
theorem validSize_form {s : Nat} (hs : ValidSize s) : ∃ h, s = 2 ^ (h + 1) - 1 := by
  induction hs with
  | new n => obtain ⟨h, hh, _⟩ := size_new n; exact ⟨h, hh⟩
  | inc _ ih => obtain ⟨h, rfl⟩ := ih; exact ⟨h + 1, size_inc h⟩

/-- **C01 (parents)**: every in-tree node other than the root has a parent inside the tree, and it
is exactly one of the parent's two children, its sibling being the other one. -/
theorem C01_parent_child {s : Nat} (hs : ValidSize s) (n : TreeNodeIndex)
    (hn : isNodeInTree n s = true) (hr : n ≠ root s) :
    isNodeInTree (.inner (parent n)) s = true ∧
    ((left (parent n) = n ∧ right (parent n) = sibling n) ∨
     (right (parent n) = n ∧ left (parent n) = sibling n)) ∧
    sibling n ≠ n ∧ sibling (sibling n) = n ∧ parent (sibling n) = parent n ∧
    isNodeInTree (sibling n) s = true := by
  obtain ⟨h, rfl⟩ := validSize_form hs
  obtain ⟨k, m, hnode⟩ := exists_node n.u32
  have hin : k ≤ h ∧ m < 2 ^ (h - k) := by
    have : n.u32 < 2 ^ (h + 1) - 1 := by simpa [isNodeInTree] using hn
    rw [hnode] at this
    exact node_lt_size.1 this
  have hkh : k < h := by
    apply Decidable.byContradiction
    intro hk
    have hk' : k = h := by omega
    subst hk'
    have : m = 0 := by have := hin.2; simp at this; omega
    subst this
    exact hr (u32_inj (by rw [hnode, root_size]))
  have hp := parent_node hnode
  have hsib := sibling_node hnode
  have hpow : 2 ^ (h - k) = 2 ^ (h - (k + 1)) * 2 := by
    rw [← Nat.pow_succ]; congr 1; omega
  have hpar_sib : parent (sibling n) = parent n := by
    apply innerToTree_inj
    rw [parent_node hsib, hp]
    congr 1
    split <;> omega
  have hsib2 : sibling (sibling n) = n := by
    apply u32_inj
    rw [sibling_node hsib, hnode]
    congr 1
    split <;> split <;> omega
  refine ⟨?_, ?_, ?_, hsib2, hpar_sib, ?_⟩
  · simp only [isNodeInTree, inner_u32, hp, decide_eq_true_eq]
    exact node_lt_size.2 ⟨hkh, by omega⟩
  · rw [left_node hp, right_node hp]
    rcases Nat.mod_two_eq_zero_or_one m with hm | hm
    · left
      constructor <;> apply u32_inj
      · rw [u32_new, hnode]; congr 1; omega
      · rw [u32_new, hsib, if_pos hm]; congr 1; omega
    · right
      constructor <;> apply u32_inj
      · rw [u32_new, hnode]; congr 1; omega
      · rw [u32_new, hsib, if_neg (by omega)]; congr 1; omega
  · intro he
    rw [he, hnode] at hsib
    have := (node_inj hsib).2
    split at this <;> omega
  · simp only [isNodeInTree, hsib, decide_eq_true_eq]
    apply node_lt_size.2
    refine ⟨hin.1, ?_⟩
    have := hin.2
    split <;> omega

/-- Non-vacuity: node 6 (a leaf) of the tree with 15 nodes. -/
example : ValidSize 15 ∧ isNodeInTree (.leaf 3) 15 = true ∧ TreeNodeIndex.leaf 3 ≠ root 15 := by
  refine ⟨?_, by decide, ?_⟩
  · have := ValidSize.inc (ValidSize.new 5)
    rwa [show TreeSize.inc (TreeSize.new 5) = 15 from ?_] at this
    simp [TreeSize.inc, TreeSize.new, log2_eq (x := 5) (h := 2)]
  · simp [root, log2_eq (x := 15) (h := 3), TreeNodeIndex.new]

/-- **C01 (children)**: the two children of an in-tree inner node are distinct in-tree nodes, one
level down, whose parent it is, and which are each other's siblings. -/
theorem C01_children {s : Nat} (hs : ValidSize s) (i : Nat)
    (hi : isNodeInTree (.inner i) s = true) :
    left i ≠ right i ∧
    parent (left i) = i ∧ parent (right i) = i ∧
    sibling (left i) = right i ∧ sibling (right i) = left i ∧
    level (left i).u32 + 1 = level (TreeNodeIndex.inner i).u32 ∧
    level (right i).u32 + 1 = level (TreeNodeIndex.inner i).u32 ∧
    isNodeInTree (left i) s = true ∧ isNodeInTree (right i) s = true ∧
    left i ≠ root s ∧ right i ≠ root s := by
  obtain ⟨h, rfl⟩ := validSize_form hs
  obtain ⟨k, m, hnode⟩ := inner_exists_node i
  have hin : k + 1 ≤ h ∧ m < 2 ^ (h - (k + 1)) := by
    have : innerToTree i < 2 ^ (h + 1) - 1 := of_decide_eq_true hi
    rw [hnode] at this
    exact node_lt_size.1 this
  have hl := left_node hnode
  have hr := right_node hnode
  have hlu : (left i).u32 = node k (2 * m) := by rw [hl, u32_new]
  have hru : (right i).u32 = node k (2 * m + 1) := by rw [hr, u32_new]
  have hpow : 2 ^ (h - k) = 2 ^ (h - (k + 1)) * 2 := by
    rw [← Nat.pow_succ]; congr 1; omega
  refine ⟨?_, ?_, ?_, ?_, ?_, ?_, ?_, ?_, ?_, ?_, ?_⟩
  · intro he
    rw [he, hru] at hlu
    have := (node_inj hlu).2
    omega
  · apply innerToTree_inj
    rw [parent_node hlu, hnode]; congr 1; omega
  · apply innerToTree_inj
    rw [parent_node hru, hnode]; congr 1; omega
  · apply u32_inj
    rw [sibling_node hlu, hru, if_pos (by omega)]
  · apply u32_inj
    rw [sibling_node hru, hlu, if_neg (by omega)]; congr 1
  · rw [hlu, inner_u32, hnode, level_node, level_node]
  · rw [hru, inner_u32, hnode, level_node, level_node]
  · simp only [isNodeInTree, hlu, decide_eq_true_eq]
    exact node_lt_size.2 ⟨by omega, by omega⟩
  · simp only [isNodeInTree, hru, decide_eq_true_eq]
    exact node_lt_size.2 ⟨by omega, by omega⟩
  · intro he
    rw [he, root_size] at hlu
    have := (node_inj hlu).1
    omega
  · intro he
    rw [he, root_size] at hru
    have := (node_inj hru).1
    omega

/-- **C01 (sizes)**: tree sizes are large enough: a tree made for `n` leaves has more than `n`
leaf slots, exactly one inner node fewer than leaf slots, contains its root, and growing it doubles
the number of leaf slots. -/
theorem C01_sizes :
    (∀ n, 0 < n → n < TreeSize.leafCount (TreeSize.fromLeafCount n) ∧
      TreeSize.leafCount (TreeSize.fromLeafCount n) ≤ 2 * n) ∧
    (∀ s, ValidSize s →
      TreeSize.leafCount s + TreeSize.innerNodeCount s = s ∧
      TreeSize.innerNodeCount s + 1 = TreeSize.leafCount s ∧
      TreeSize.leafCount (TreeSize.inc s) = 2 * TreeSize.leafCount s ∧
      isNodeInTree (root s) s = true ∧
      (∀ i, isNodeInTree (.leaf i) s = true ↔ i < TreeSize.leafCount s) ∧
      (∀ i, isNodeInTree (.inner i) s = true ↔ i < TreeSize.innerNodeCount s)) := by
  constructor
  · intro n hn
    unfold TreeSize.fromLeafCount
    obtain ⟨h, ha, hb, hc⟩ := size_new (n * 2)
    have hc := hc (by omega)
    rw [ha] at hb ⊢
    rw [leafCount_size]
    have h2 : 2 ^ (h + 1) = 2 ^ h * 2 := Nat.pow_succ ..
    omega
  · intro s hs
    obtain ⟨h, rfl⟩ := validSize_form hs
    have hpos := two_pow_pos' h
    have h2 : 2 ^ (h + 1) = 2 ^ h * 2 := Nat.pow_succ ..
    refine ⟨?_, ?_, ?_, ?_, ?_, ?_⟩
    · rw [leafCount_size, innerCount_size]; omega
    · rw [leafCount_size, innerCount_size]; omega
    · rw [size_inc, leafCount_size, leafCount_size]; omega
    · simp only [isNodeInTree, root_size, decide_eq_true_eq]
      exact node_lt_size.2 ⟨Nat.le_refl _, by simp⟩
    · intro i
      rw [leafCount_size]
      unfold isNodeInTree
      rw [decide_eq_true_iff]
      simp only [TreeNodeIndex.u32, leafToTree]
      omega
    · intro i
      rw [innerCount_size]
      unfold isNodeInTree
      rw [decide_eq_true_iff]
      simp only [TreeNodeIndex.u32, innerToTree]
      omega

/-- Specification for C02: `Climbs s n l` — `l` lists, from the bottom up, the ancestors of `n` in
the tree of size `s`: each is the parent of the one before, one level higher, inside the tree, and
the last one (or `n` itself if the list is empty) is the root. -/
inductive Climbs (s : Nat) : TreeNodeIndex → List Nat → Prop
  | done : Climbs s (root s) []
  | up {n : TreeNodeIndex} {p : Nat} {l : List Nat} :
      n ≠ root s → parent n = p → (left p = n ∨ right p = n) →
      level (TreeNodeIndex.inner p).u32 = level n.u32 + 1 →
      isNodeInTree (.inner p) s = true →
      Climbs s (.inner p) l → Climbs s n (p :: l)

theorem climbs_closed (h k m : Nat) {n : TreeNodeIndex} (hn : n.u32 = node k m) (hk : k ≤ h)
    (hm : m < 2 ^ (h - k)) :
    Climbs (2 ^ (h + 1) - 1) n
      ((List.range (h - k)).map (fun i => nodeInner (k + i) (m / 2 ^ (i + 1)))) := by
  induction hd : h - k generalizing k m n with
  | zero =>
    have hk' : k = h := by omega
    subst hk'
    have : m = 0 := by simp at hm; omega
    subst this
    rw [u32_inj (a := n) (b := root (2 ^ (k + 1) - 1)) (by rw [hn, root_size])]
    exact Climbs.done
  | succ d ih =>
    have hp := parent_node hn
    have hpi : parent n = nodeInner k (m / 2) := by
      apply innerToTree_inj
      rw [hp, innerToTree_nodeInner]
    have hpow : 2 ^ (h - k) = 2 ^ (h - (k + 1)) * 2 := by
      rw [← Nat.pow_succ]; congr 1; omega
    rw [List.range_succ_eq_map, List.map_cons, List.map_map]
    have hpu : (TreeNodeIndex.inner (nodeInner k (m / 2))).u32 = node (k + 1) (m / 2) := by
      rw [inner_u32, innerToTree_nodeInner]
    have hrec := ih (k + 1) (m / 2) hpu (by omega) (by omega) (by omega)
    have e0 : nodeInner (k + 0) (m / 2 ^ (0 + 1)) = nodeInner k (m / 2) := by simp
    rw [e0]
    apply Climbs.up
    · intro he
      rw [he, root_size] at hn
      have := (node_inj hn).1
      omega
    · exact hpi
    · rw [← hpi, left_node hp, right_node hp]
      rcases Nat.mod_two_eq_zero_or_one m with h1 | h1
      · left; apply u32_inj; rw [u32_new, hn]; congr 1; omega
      · right; apply u32_inj; rw [u32_new, hn]; congr 1; omega
    · rw [hpu, hn, level_node, level_node]
    · simp only [isNodeInTree, hpu, decide_eq_true_eq]
      exact node_lt_size.2 ⟨by omega, by omega⟩
    · have e1 : ((fun i => nodeInner (k + i) (m / 2 ^ (i + 1))) ∘ Nat.succ) =
          (fun i => nodeInner (k + 1 + i) (m / 2 / 2 ^ (i + 1))) := by
        funext i
        simp only [Function.comp, Nat.succ_eq_add_one]
        rw [Nat.div_div_eq_div_mul]
        congr 1
        · omega
        · congr 1
          rw [Nat.pow_succ 2 (i + 1), Nat.mul_comm]
      rw [e1]
      exact hrec

/-- **C02**: for every tree size the code can build and every leaf slot in it, the direct-path
computation terminates and returns the list of ancestors of the leaf, bottom-up, ending at the
root; its length is the height `h` of the tree, which has `2^h` leaf slots. -/
theorem C02_direct_path {s : Nat} (hs : ValidSize s) (i : Nat) (hi : i < TreeSize.leafCount s) :
    ∃ l, directPath (.leaf i) s = some l ∧ Climbs s (.leaf i) l ∧
      2 ^ l.length = TreeSize.leafCount s := by
  obtain ⟨h, rfl⟩ := validSize_form hs
  rw [leafCount_size] at hi ⊢
  refine ⟨_, directPath_leaf hi, ?_, by simp⟩
  have := climbs_closed h 0 i (leaf_u32 i) (Nat.zero_le _) (by simpa using hi)
  simpa using this

/-- **C02 (any node)**: the same holds starting from any node of the tree. -/
theorem C02_direct_path_any {s : Nat} (hs : ValidSize s) (n : TreeNodeIndex)
    (hn : isNodeInTree n s = true) :
    ∃ l, directPath n s = some l ∧ Climbs s n l := by
  obtain ⟨h, rfl⟩ := validSize_form hs
  obtain ⟨k, m, hnode⟩ := exists_node n.u32
  have hin : k ≤ h ∧ m < 2 ^ (h - k) := by
    have : n.u32 < 2 ^ (h + 1) - 1 := by simpa [isNodeInTree] using hn
    rw [hnode] at this
    exact node_lt_size.1 this
  exact ⟨_, directPath_node hnode hin.1 hin.2, climbs_closed h k m hnode hin.1 hin.2⟩

example : ValidSize 7 ∧ 2 < TreeSize.leafCount 7 := by
  refine ⟨?_, by decide⟩
  have := ValidSize.new 7
  rwa [show TreeSize.new 7 = 7 from ?_] at this
  simp [TreeSize.new, log2_eq (x := 7) (h := 2)]

/-- `n` and then its direct path: the chain of nodes from `n` to the root. -/
def chainFrom (n : TreeNodeIndex) (l : List Nat) : List TreeNodeIndex :=
  n :: l.map .inner

/-- **C03**: the direct paths of two distinct leaves split as `a ++ c :: t` and `b ++ c :: t`: they
share everything from their meeting node `c` up, nothing below, and the two leaves sit under
different children of `c` (the last nodes before `c` are each other's siblings). -/
theorem C03_meet {s : Nat} (hs : ValidSize s) (i j : Nat) (hi : i < TreeSize.leafCount s)
    (hj : j < TreeSize.leafCount s) (hij : i ≠ j) :
    ∃ a b c t, directPath (.leaf i) s = some (a ++ c :: t) ∧
      directPath (.leaf j) s = some (b ++ c :: t) ∧ a.length = b.length ∧
      (∀ x ∈ a, x ∉ b) ∧
      ∃ x y, (chainFrom (.leaf i) a).getLast? = some x ∧
        (chainFrom (.leaf j) b).getLast? = some y ∧ sibling x = y ∧ parent x = c ∧ parent y = c := by
  obtain ⟨h, rfl⟩ := validSize_form hs
  rw [leafCount_size] at hi hj
  -- the least height at which the ancestors coincide
  have hex : ∃ t, t < h ∧ i / 2 ^ (t + 1) = j / 2 ^ (t + 1) ∧ i / 2 ^ t ≠ j / 2 ^ t := by
    have key : ∀ u, u ≤ h → i / 2 ^ u = j / 2 ^ u →
        ∃ t, t < u ∧ i / 2 ^ (t + 1) = j / 2 ^ (t + 1) ∧ i / 2 ^ t ≠ j / 2 ^ t := by
      intro u
      induction u with
      | zero => intro _ he; simp at he; exact absurd he hij
      | succ u ih =>
        intro hu he
        by_cases h1 : i / 2 ^ u = j / 2 ^ u
        · obtain ⟨t, ht, h2⟩ := ih (by omega) h1
          exact ⟨t, by omega, h2⟩
        · exact ⟨u, by omega, he, h1⟩
    apply key h (Nat.le_refl _)
    rw [Nat.div_eq_of_lt hi, Nat.div_eq_of_lt hj]
  obtain ⟨t, ht, heq, hne⟩ := hex
  have hmono : ∀ u, t < u → i / 2 ^ u = j / 2 ^ u := by
    intro u hu
    have e : u = (t + 1) + (u - (t + 1)) := by omega
    rw [e, Nat.pow_add, ← Nat.div_div_eq_div_mul, ← Nat.div_div_eq_div_mul, heq]
  have hnemono : ∀ u, u ≤ t → i / 2 ^ u ≠ j / 2 ^ u := by
    intro u hu he
    apply hne
    have e : t = u + (t - u) := by omega
    rw [e, Nat.pow_add, ← Nat.div_div_eq_div_mul, ← Nat.div_div_eq_div_mul, he]
  have split : ∀ x, (List.range h).map (fun u => nodeInner u (x / 2 ^ (u + 1))) =
      (List.range t).map (fun u => nodeInner u (x / 2 ^ (u + 1))) ++
        nodeInner t (x / 2 ^ (t + 1)) ::
        (List.range (h - (t + 1))).map
          (fun u => nodeInner (t + 1 + u) (x / 2 ^ (t + 1 + u + 1))) := by
    intro x
    have e : h = t + (1 + (h - (t + 1))) := by omega
    conv => lhs; rw [e, List.range_add, List.range_add]
    simp [List.map_append, List.map_map, Function.comp_def]
    intro a _
    congr 1
    · omega
    · congr 2; omega
  refine ⟨(List.range t).map (fun u => nodeInner u (i / 2 ^ (u + 1))),
    (List.range t).map (fun u => nodeInner u (j / 2 ^ (u + 1))),
    nodeInner t (i / 2 ^ (t + 1)),
    (List.range (h - (t + 1))).map (fun u => nodeInner (t + 1 + u) (i / 2 ^ (t + 1 + u + 1))),
    ?_, ?_, by simp, ?_, ?_⟩
  · rw [directPath_leaf hi, split]
  · rw [directPath_leaf hj, split j, ← heq]
    congr 3
    apply List.map_congr_left
    intro u _
    rw [hmono (t + 1 + u + 1) (by omega)]
  · intro x hx hx'
    rw [List.mem_map] at hx hx'
    obtain ⟨u, hu, rfl⟩ := hx
    obtain ⟨v, hv, he⟩ := hx'
    rw [List.mem_range] at hu hv
    have := congrArg innerToTree he
    rw [innerToTree_nodeInner, innerToTree_nodeInner] at this
    obtain ⟨h1, h2⟩ := node_inj this
    have : v = u := by omega
    subst this
    exact hnemono (v + 1) (by omega) h2.symm
  · -- the last node below the meeting point, for a leaf `x`
    have hlast : ∀ x, ∃ n, (chainFrom (.leaf x)
        ((List.range t).map (fun u => nodeInner u (x / 2 ^ (u + 1))))).getLast? = some n ∧
        n.u32 = node t (x / 2 ^ t) := by
      intro x
      cases t with
      | zero => exact ⟨.leaf x, by simp [chainFrom], by simp [leaf_u32]⟩
      | succ t =>
        refine ⟨.inner (nodeInner t (x / 2 ^ (t + 1))), ?_, ?_⟩
        · simp [chainFrom, List.range_succ, List.getLast?_cons]
        · rw [inner_u32, innerToTree_nodeInner]
    obtain ⟨x, hx, hxu⟩ := hlast i
    obtain ⟨y, hy, hyu⟩ := hlast j
    have hdd : i / 2 ^ t / 2 = j / 2 ^ t / 2 := by
      rw [Nat.div_div_eq_div_mul, Nat.div_div_eq_div_mul, ← Nat.pow_succ, heq]
    refine ⟨x, y, hx, hy, ?_, ?_, ?_⟩
    · apply u32_inj
      rw [sibling_node hxu, hyu]
      congr 1
      generalize i / 2 ^ t = p at *
      generalize j / 2 ^ t = q at *
      split <;> omega
    · apply innerToTree_inj
      rw [parent_node hxu, innerToTree_nodeInner, Nat.div_div_eq_div_mul, ← Nat.pow_succ]
    · apply innerToTree_inj
      rw [parent_node hyu, innerToTree_nodeInner, Nat.div_div_eq_div_mul, ← Nat.pow_succ, heq]

/-- Non-vacuity: leaves 1 and 3 of the tree with 4 leaf slots. -/
example : ValidSize 7 ∧ 1 < TreeSize.leafCount 7 ∧ 3 < TreeSize.leafCount 7 ∧ (1 : Nat) ≠ 3 := by
  refine ⟨?_, by decide, by decide, by decide⟩
  have := ValidSize.new 7
  rwa [show TreeSize.new 7 = 7 from ?_] at this
  simp [TreeSize.new, log2_eq (x := 7) (h := 2)]

end Verif.TreeMath
