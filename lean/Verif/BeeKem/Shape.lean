import Verif.BeeKem.Tree
import Verif.TreeMath.Lemmas

/-! # Helper lemmas: the shape of the key tree and the effect of each primitive operation -/

namespace Verif.BeeKem

open Verif.TreeMath

theorem nodeInner_lt {h k m : Nat} : nodeInner k m < 2 ^ h - 1 ↔ k + 1 ≤ h ∧ m < 2 ^ (h - (k + 1)) := by
  rw [← node_lt_size (h := h), ← innerToTree_nodeInner]
  unfold innerToTree
  have h2 : 2 ^ (h + 1) = 2 ^ h * 2 := Nat.pow_succ ..
  omega

theorem nodeInner_inj {k m k' m' : Nat} (h : nodeInner k m = nodeInner k' m') : k = k' ∧ m = m' := by
  have : node (k + 1) m = node (k' + 1) m' := by
    rw [← innerToTree_nodeInner, ← innerToTree_nodeInner, h]
  have := node_inj this
  exact ⟨by omega, this.2⟩

theorem parent_leaf (i : Nat) : parent (.leaf i) = nodeInner 0 (i / 2) := by
  apply innerToTree_inj
  rw [parent_node (leaf_u32 i), innerToTree_nodeInner]

theorem parent_nodeInner (k m : Nat) : parent (.inner (nodeInner k m)) = nodeInner (k + 1) (m / 2) := by
  apply innerToTree_inj
  rw [parent_node (k := k + 1) (m := m) (by rw [inner_u32, innerToTree_nodeInner]),
    innerToTree_nodeInner]

theorem left_nodeInner_succ (k m : Nat) : left (nodeInner (k + 1) m) = .inner (nodeInner k (2 * m)) := by
  rw [left_node (innerToTree_nodeInner (k + 1) m)]
  apply u32_inj
  rw [u32_new, inner_u32, innerToTree_nodeInner]

theorem right_nodeInner_succ (k m : Nat) :
    right (nodeInner (k + 1) m) = .inner (nodeInner k (2 * m + 1)) := by
  rw [right_node (innerToTree_nodeInner (k + 1) m)]
  apply u32_inj
  rw [u32_new, inner_u32, innerToTree_nodeInner]

theorem left_nodeInner_zero (m : Nat) : left (nodeInner 0 m) = .leaf (2 * m) := by
  rw [left_node (innerToTree_nodeInner 0 m)]
  apply u32_inj
  rw [u32_new, leaf_u32]

theorem right_nodeInner_zero (m : Nat) : right (nodeInner 0 m) = .leaf (2 * m + 1) := by
  rw [right_node (innerToTree_nodeInner 0 m)]
  apply u32_inj
  rw [u32_new, leaf_u32]

theorem root_eq (h : Nat) : root (2 ^ (h + 2) - 1) = .inner (nodeInner h 0) := by
  apply u32_inj
  rw [root_size (h + 1), inner_u32, innerToTree_nodeInner]

namespace BeeKem

/-- Leaf `i` of the tree, `none` when blank or out of range. -/
def leafD (t : BeeKem) (i : Nat) : Option LeafNode := (t.leaves[i]?).join

/-- Inner node `i`, `none` when blank or out of range. -/
def innerD (t : BeeKem) (i : Nat) : Option SecretStore := (t.innerNodes[i]?).join

/-- The tree is a full binary tree of height `h ≥ 1`. -/
structure Shape (t : BeeKem) (h : Nat) : Prop where
  pos : 1 ≤ h
  size : t.treeSize = 2 ^ (h + 1) - 1
  leaves : t.leaves.length = 2 ^ h
  inner : t.innerNodes.length = 2 ^ h - 1

theorem leaf_ok {t : BeeKem} {h i : Nat} (hs : Shape t h) (hi : i < 2 ^ h) :
    t.leaf i = .ok (t.leafD i) := by
  unfold leaf leafD
  have : i < t.leaves.length := by rw [hs.leaves]; exact hi
  simp [this]

theorem innerNode_ok {t : BeeKem} {h i : Nat} (hs : Shape t h) (hi : i < 2 ^ h - 1) :
    t.innerNode i = .ok (t.innerD i) := by
  unfold innerNode innerD
  have : i < t.innerNodes.length := by rw [hs.inner]; exact hi
  simp [this]

theorem isRoot_inner {t : BeeKem} {h k m : Nat} (hs : Shape t h) :
    t.isRoot (.inner (nodeInner k m)) = decide (k + 1 = h ∧ m = 0) := by
  obtain ⟨h', rfl⟩ : ∃ h', h = h' + 1 := ⟨h - 1, by have := hs.pos; omega⟩
  unfold isRoot
  rw [hs.size, root_eq]
  congr 1
  simp only [TreeNodeIndex.inner.injEq, eq_iff_iff]
  constructor
  · intro he
    have := nodeInner_inj he
    omega
  · rintro ⟨h1, rfl⟩
    rw [show k = h' by omega]

theorem isRoot_leaf {t : BeeKem} {h i : Nat} (hs : Shape t h) : t.isRoot (.leaf i) = false := by
  obtain ⟨h', rfl⟩ : ∃ h', h = h' + 1 := ⟨h - 1, by have := hs.pos; omega⟩
  unfold isRoot
  rw [hs.size, root_eq]
  simp

/-- The inner nodes above `nodeInner k m` (included), bottom up. -/
def pathFrom (h k m : Nat) : List Nat := (List.range (h - k)).map (fun i => nodeInner (k + i) (m / 2 ^ i))

/-- The inner nodes above leaf `i`, bottom up. -/
def path (h i : Nat) : List Nat := (List.range h).map (fun t => nodeInner t (i / 2 ^ (t + 1)))

theorem pathFrom_leaf (h i : Nat) : pathFrom h 0 (i / 2) = path h i := by
  unfold pathFrom path
  simp only [Nat.sub_zero, Nat.zero_add]
  apply List.map_congr_left
  intro t _
  rw [Nat.div_div_eq_div_mul, Nat.pow_succ, Nat.mul_comm]

theorem pathFrom_cons {h k m : Nat} (hk : k < h) :
    pathFrom h k m = nodeInner k m :: pathFrom h (k + 1) (m / 2) := by
  unfold pathFrom
  rw [show h - k = (h - (k + 1)) + 1 by omega, List.range_succ_eq_map, List.map_cons, List.map_map]
  congr 1
  · simp
  · apply List.map_congr_left
    intro i _
    simp only [Function.comp]
    rw [Nat.div_div_eq_div_mul, Nat.pow_succ, Nat.mul_comm 2]
    congr 1
    omega

theorem pathFrom_top {h m : Nat} : pathFrom h h m = [] := by simp [pathFrom]

theorem mem_path {h i j : Nat} : j ∈ path h i ↔ ∃ k, k < h ∧ j = nodeInner k (i / 2 ^ (k + 1)) := by
  simp only [path, List.mem_map, List.mem_range, eq_comm]

theorem mem_path_nodeInner {h i k m : Nat} :
    nodeInner k m ∈ path h i ↔ k < h ∧ m = i / 2 ^ (k + 1) := by
  rw [mem_path]
  constructor
  · rintro ⟨k', hk', he⟩
    obtain ⟨rfl, rfl⟩ := nodeInner_inj he
    exact ⟨hk', rfl⟩
  · rintro ⟨hk, rfl⟩
    exact ⟨k, hk, rfl⟩

theorem path_lt {h i j : Nat} (hi : i < 2 ^ h) (hj : j ∈ path h i) : j < 2 ^ h - 1 := by
  obtain ⟨k, hk, rfl⟩ := mem_path.1 hj
  rw [nodeInner_lt]
  refine ⟨hk, ?_⟩
  rw [Nat.div_lt_iff_lt_mul (Nat.pow_pos (by decide)), ← Nat.pow_add]
  rwa [show h - (k + 1) + (k + 1) = h by omega]

theorem root_mem_path {h i : Nat} (hi : i < 2 ^ (h + 1)) : nodeInner h 0 ∈ path (h + 1) i := by
  rw [mem_path_nodeInner]
  refine ⟨by omega, ?_⟩
  rw [Nat.div_eq_of_lt hi]

theorem path_length (h i : Nat) : (path h i).length = h := by simp [path]

/-- Blank the inner nodes listed. -/
def blankAll (l : List (Option SecretStore)) (idxs : List Nat) : List (Option SecretStore) :=
  idxs.foldl (fun l i => l.set i none) l

theorem blankAll_length (l : List (Option SecretStore)) (idxs : List Nat) :
    (blankAll l idxs).length = l.length := by
  unfold blankAll
  induction idxs generalizing l with
  | nil => rfl
  | cons a idxs ih => rw [List.foldl_cons, ih]; simp

theorem blankAll_get (l : List (Option SecretStore)) (idxs : List Nat) (j : Nat) :
    ((blankAll l idxs)[j]?).join = if j ∈ idxs then none else (l[j]?).join := by
  unfold blankAll
  induction idxs generalizing l with
  | nil => simp
  | cons a idxs ih =>
    rw [List.foldl_cons, ih]
    by_cases hj : j ∈ idxs
    · simp [hj]
    · by_cases ha : j = a
      · subst ha
        rw [if_neg hj, if_pos (by simp)]
        by_cases hlt : j < l.length
        · simp [hlt]
        · rw [List.getElem?_eq_none (by simpa using hlt)]
          rfl
      · simp only [hj, ha, List.mem_cons, or_false, if_false]
        rw [List.getElem?_set_ne (Ne.symm ha)]

theorem shape_blank {t : BeeKem} {h : Nat} (hs : Shape t h) (idxs : List Nat) :
    Shape { t with innerNodes := blankAll t.innerNodes idxs } h :=
  ⟨hs.pos, hs.size, hs.leaves, by simp [blankAll_length, hs.inner]⟩

theorem size_gt {t : BeeKem} {h : Nat} (hs : Shape t h) : h < t.treeSize + 1 := by
  rw [hs.size]
  have h1 : h < 2 ^ h := Nat.lt_two_pow_self
  have h2 : 2 ^ (h + 1) = 2 ^ h * 2 := Nat.pow_succ ..
  omega

theorem blankPathLoop_ok {t : BeeKem} {h k m fuel : Nat} (hs : Shape t h) (hk : k + 1 ≤ h)
    (hm : m < 2 ^ (h - (k + 1))) (hf : h - k ≤ fuel) :
    blankPathLoop fuel t (nodeInner k m) =
      .ok { t with innerNodes := blankAll t.innerNodes (pathFrom h k m) } := by
  induction fuel generalizing t k m with
  | zero => omega
  | succ f ih =>
    unfold blankPathLoop
    have hlt : nodeInner k m < t.innerNodes.length := by
      rw [hs.inner]; exact nodeInner_lt.2 ⟨hk, hm⟩
    rw [isRoot_inner hs]
    by_cases hr : k + 1 = h
    · have hm0 : m = 0 := by
        rw [hr, Nat.sub_self] at hm; omega
      subst hm0
      rw [if_pos (by simp [hr]), blankInnerNode, if_pos hlt]
      rw [pathFrom_cons (by omega), hr, pathFrom_top]
      rfl
    · rw [if_neg (by simp [hr]), blankInnerNode, if_pos hlt]
      have hs' : Shape { t with innerNodes := t.innerNodes.set (nodeInner k m) none } h :=
        shape_blank hs [nodeInner k m]
      have hm2 : m / 2 < 2 ^ (h - (k + 1 + 1)) := by
        rw [show h - (k + 1) = (h - (k + 1 + 1)) + 1 by omega, Nat.pow_succ] at hm
        omega
      have := ih hs' (k := k + 1) (m := m / 2) (by omega) hm2 (by omega)
      simp only [parent_nodeInner]
      change blankPathLoop f _ _ = _
      rw [this, pathFrom_cons (h := h) (k := k) (by omega)]
      rfl

theorem div2_lt {h i : Nat} (hp : 1 ≤ h) (hi : i < 2 ^ h) : i / 2 < 2 ^ (h - (0 + 1)) := by
  rw [show h = (h - 1) + 1 by omega, Nat.pow_succ] at hi
  simp only [Nat.zero_add]
  omega

theorem blankPath_ok {t : BeeKem} {h i : Nat} (hs : Shape t h) (hi : i < 2 ^ h) :
    t.blankPath (parent (.leaf i)) =
      .ok { t with innerNodes := blankAll t.innerNodes (path h i) } := by
  unfold blankPath
  rw [parent_leaf, blankPathLoop_ok hs (by have := hs.pos; omega) (div2_lt hs.pos hi)
    (by have := size_gt hs; omega), pathFrom_leaf]

theorem innerD_blank (t : BeeKem) (idxs : List Nat) (j : Nat) :
    innerD { t with innerNodes := blankAll t.innerNodes idxs } j =
      if j ∈ idxs then none else t.innerD j := blankAll_get _ _ _

theorem leafD_set {t : BeeKem} {h i : Nat} (hs : Shape t h) (hi : i < 2 ^ h) (x : Option LeafNode)
    (j : Nat) :
    leafD { t with leaves := t.leaves.set i x } j = if j = i then x else t.leafD j := by
  unfold leafD
  by_cases hj : j = i
  · subst hj
    have : j < t.leaves.length := by rw [hs.leaves]; exact hi
    simp [this]
  · simp only [hj, if_false]
    rw [List.getElem?_set_ne (Ne.symm hj)]

theorem innerD_set {t : BeeKem} {h i : Nat} (hs : Shape t h) (hi : i < 2 ^ h - 1)
    (x : Option SecretStore) (j : Nat) :
    innerD { t with innerNodes := t.innerNodes.set i x } j = if j = i then x else t.innerD j := by
  unfold innerD
  by_cases hj : j = i
  · subst hj
    have : j < t.innerNodes.length := by rw [hs.inner]; exact hi
    simp [this]
  · simp only [hj, if_false]
    rw [List.getElem?_set_ne (Ne.symm hj)]

theorem shape_setLeaf {t : BeeKem} {h : Nat} (hs : Shape t h) (i : Nat) (x : Option LeafNode) :
    Shape { t with leaves := t.leaves.set i x } h :=
  ⟨hs.pos, hs.size, by simp [hs.leaves], hs.inner⟩

theorem shape_setInner {t : BeeKem} {h : Nat} (hs : Shape t h) (i : Nat) (x : Option SecretStore) :
    Shape { t with innerNodes := t.innerNodes.set i x } h :=
  ⟨hs.pos, hs.size, hs.leaves, by simp [hs.inner]⟩

theorem insertLeafAt_ok {t : BeeKem} {h i : Nat} (hs : Shape t h) (hi : i < 2 ^ h) (id : MemberId)
    (pk : NodeKey) :
    t.insertLeafAt i id pk = .ok { t with leaves := t.leaves.set i (some ⟨id, pk⟩) } := by
  unfold insertLeafAt
  rw [if_pos (by rw [hs.leaves]; exact hi)]

theorem insertInnerNodeAt_ok {t : BeeKem} {h i : Nat} (hs : Shape t h) (hi : i < 2 ^ h - 1)
    (s : SecretStore) :
    t.insertInnerNodeAt i s = .ok { t with innerNodes := t.innerNodes.set i (some s) } := by
  unfold insertInnerNodeAt
  rw [if_pos (by rw [hs.inner]; exact hi)]

/-- `blank_leaf_and_path` in a well-shaped tree. -/
theorem blankLeafAndPath_ok {t : BeeKem} {h i : Nat} (hs : Shape t h) (hi : i < 2 ^ h) :
    ∃ t', t.blankLeafAndPath i = .ok t' ∧ Shape t' h ∧ t'.nextLeafIdx = t.nextLeafIdx ∧
      t'.idToLeafIdx = t.idToLeafIdx ∧
      (∀ j, t'.leafD j = if j = i then none else t.leafD j) ∧
      (∀ j, t'.innerD j = if j ∈ path h i then none else t.innerD j) := by
  have hs1 := shape_setLeaf hs i none
  refine ⟨_, ?_, shape_blank hs1 (path h i), rfl, rfl, ?_, ?_⟩
  · unfold blankLeafAndPath blankLeaf
    rw [if_pos (by rw [hs.leaves]; exact hi)]
    change BeeKem.blankPath _ _ = _
    rw [blankPath_ok hs1 hi]
  · intro j
    exact leafD_set hs hi none j
  · intro j
    exact blankAll_get _ _ _

theorem resizeNone_get {α : Type} (l : List (Option α)) (n j : Nat) (hn : l.length ≤ n) :
    ((resizeNone l n)[j]?).join = (l[j]?).join := by
  unfold resizeNone
  rw [List.take_of_length_le hn]
  by_cases hj : j < l.length
  · rw [List.getElem?_append_left hj]
  · rw [List.getElem?_append_right (Nat.not_lt.1 hj), List.getElem?_eq_none (Nat.not_lt.1 hj)]
    by_cases hr : j - l.length < n - l.length
    · simp [hr]
    · simp [hr]

theorem resizeNone_length {α : Type} (l : List (Option α)) (n : Nat) (hn : l.length ≤ n) :
    (resizeNone l n).length = n := by
  unfold resizeNone
  simp
  omega

theorem fromLeafCount_le {h n : Nat} (hn : n < 2 ^ h) : TreeSize.fromLeafCount n ≤ 2 ^ (h + 1) - 1 := by
  unfold TreeSize.fromLeafCount
  obtain ⟨h', he, _, h3⟩ := size_new (n * 2)
  rw [he]
  by_cases h0 : n * 2 = 0
  · rw [h0] at he
    have hp := two_pow_pos' h
    have h2 : 2 ^ (h + 1) = 2 ^ h * 2 := Nat.pow_succ ..
    rw [← he]
    simp only [TreeSize.new, log2]
    simp
    omega
  · have h4 := h3 h0
    have h5 : 2 ^ h' < 2 ^ (h + 1) := by rw [Nat.pow_succ 2 h]; omega
    have h6 : h' < h + 1 := (Nat.pow_lt_pow_iff_right (by decide)).1 h5
    have : 2 ^ (h' + 1) ≤ 2 ^ (h + 1) := Nat.pow_le_pow_right (by decide) (by omega)
    omega

theorem fromLeafCount_gt {h : Nat} : 2 ^ (h + 1) - 1 < TreeSize.fromLeafCount (2 ^ h) := by
  unfold TreeSize.fromLeafCount
  obtain ⟨h', he, h2, _⟩ := size_new (2 ^ h * 2)
  have := two_pow_pos' h
  rw [Nat.pow_succ]
  omega

/-- `maybe_grow_tree` keeps the contents and makes room for leaf `next_leaf_idx`. -/
theorem maybeGrowTree_ok {t : BeeKem} {h : Nat} (hs : Shape t h) (hn : t.nextLeafIdx ≤ 2 ^ h) :
    ∃ h', Shape (t.maybeGrowTree t.nextLeafIdx) h' ∧ (h' = h ∨ h' = h + 1) ∧
      t.nextLeafIdx < 2 ^ h' ∧ (t.maybeGrowTree t.nextLeafIdx).nextLeafIdx = t.nextLeafIdx ∧
      (t.maybeGrowTree t.nextLeafIdx).idToLeafIdx = t.idToLeafIdx ∧
      (∀ j, (t.maybeGrowTree t.nextLeafIdx).leafD j = t.leafD j) ∧
      (∀ j, (t.maybeGrowTree t.nextLeafIdx).innerD j = t.innerD j) ∧
      (h' = h → t.maybeGrowTree t.nextLeafIdx = t) ∧ (h' = h + 1 → t.nextLeafIdx = 2 ^ h) := by
  unfold maybeGrowTree
  by_cases hlt : t.nextLeafIdx < 2 ^ h
  · have := fromLeafCount_le hlt
    rw [if_pos (by rw [hs.size]; exact this)]
    refine ⟨h, hs, Or.inl rfl, hlt, rfl, rfl, fun _ => rfl, fun _ => rfl, fun _ => rfl, ?_⟩
    omega
  · have he : t.nextLeafIdx = 2 ^ h := by omega
    have := fromLeafCount_gt (h := h)
    rw [if_neg (by rw [hs.size, he]; omega)]
    have hp : 2 ^ (h + 1) = 2 ^ h * 2 := Nat.pow_succ ..
    have hpos := two_pow_pos' h
    refine ⟨h + 1, ?_, Or.inr rfl, ?_, rfl, rfl, ?_, ?_, ?_, fun _ => he⟩
    · have hl : TreeSize.leafCount (TreeSize.inc (2 ^ (h + 1) - 1)) = 2 ^ (h + 1) := by
        rw [size_inc]; exact leafCount_size (h + 1)
      have hi : TreeSize.innerNodeCount (TreeSize.inc (2 ^ (h + 1) - 1)) = 2 ^ (h + 1) - 1 := by
        rw [size_inc]; exact innerCount_size (h + 1)
      refine ⟨by omega, ?_, ?_, ?_⟩
      · simp only [growTreeToSize, hs.size, size_inc]
      · simp only [growTreeToSize, hs.size, hl]
        exact resizeNone_length _ _ (by rw [hs.leaves]; omega)
      · simp only [growTreeToSize, hs.size, hi]
        exact resizeNone_length _ _ (by rw [hs.inner]; omega)
    · omega
    · intro j
      apply resizeNone_get
      rw [hs.leaves, hs.size, size_inc, leafCount_size (h + 1)]
      omega
    · intro j
      apply resizeNone_get
      rw [hs.inner, hs.size, size_inc, innerCount_size (h + 1)]
      omega
    · omega

/-- The effect of `push_leaf`. -/
theorem pushLeaf_ok {t : BeeKem} {h : Nat} (hs : Shape t h) (hn : t.nextLeafIdx ≤ 2 ^ h)
    (id : MemberId) (pk : NodeKey) :
    ∃ t' h', t.pushLeaf id pk = .ok (t', t.nextLeafIdx) ∧ Shape t' h' ∧ (h' = h ∨ h' = h + 1) ∧
      t.nextLeafIdx < 2 ^ h' ∧ t'.nextLeafIdx = t.nextLeafIdx + 1 ∧
      t'.idToLeafIdx = AMap.insert t.idToLeafIdx id t.nextLeafIdx ∧
      (∀ j, t'.leafD j = if j = t.nextLeafIdx then some ⟨id, pk⟩ else t.leafD j) ∧
      (∀ j, t'.innerD j = if j ∈ path h' t.nextLeafIdx then none else t.innerD j) := by
  obtain ⟨h', hs1, hh, hlt, hnx, hid, hl, hi, _⟩ := maybeGrowTree_ok hs hn
  generalize hg : t.maybeGrowTree t.nextLeafIdx = t1 at *
  have hs2 : Shape { t1 with nextLeafIdx := t.nextLeafIdx + 1 } h' :=
    ⟨hs1.pos, hs1.size, hs1.leaves, hs1.inner⟩
  have hs3 := shape_setLeaf hs2 t.nextLeafIdx (some ⟨id, pk⟩)
  have hs4 : Shape { t1 with
      nextLeafIdx := t.nextLeafIdx + 1
      leaves := t1.leaves.set t.nextLeafIdx (some ⟨id, pk⟩)
      idToLeafIdx := AMap.insert t1.idToLeafIdx id t.nextLeafIdx } h' :=
    ⟨hs3.pos, hs3.size, hs3.leaves, hs3.inner⟩
  refine ⟨_, h', ?_, shape_blank hs4 (path h' t.nextLeafIdx), hh, hlt, rfl, ?_, ?_, ?_⟩
  · unfold pushLeaf
    simp only [hg, hnx]
    rw [insertLeafAt_ok hs2 hlt]
    change (do let t5 ← BeeKem.blankPath _ _; pure (t5, t.nextLeafIdx)) = _
    rw [blankPath_ok hs4 hlt]
    rfl
  · simp only [hid]
  · intro j
    have := leafD_set hs2 hlt (some ⟨id, pk⟩) j
    rw [← hl j]
    exact this
  · intro j
    rw [← hi j]
    exact blankAll_get _ _ _

end BeeKem

end Verif.BeeKem
