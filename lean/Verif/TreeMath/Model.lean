/-!
# Model of `beekem/src/treemath.rs`

Indices are `Nat` instead of `u32`; overflow of 32-bit indices is not modelled.
`debug_assert!`s are not modelled.
-/

namespace Verif.TreeMath

/-- `TreeNodeIndex` — beekem/src/treemath.rs:167-171. `Leaf(LeafNodeIndex(u32))` or
`Inner(InnerNodeIndex(u32))` (lines 30, 96); the newtypes are flattened. -/
inductive TreeNodeIndex where
  | leaf (i : Nat)
  | inner (i : Nat)
deriving DecidableEq, Repr

/-- `LeafNodeIndex::to_tree_index` — treemath.rs:55-57. -/
def leafToTree (i : Nat) : Nat := i * 2

/-- `InnerNodeIndex::to_tree_index` — treemath.rs:114-116. -/
def innerToTree (i : Nat) : Nat := i * 2 + 1

/-- `InnerNodeIndex::from_tree_index` — treemath.rs:119-123. -/
def innerFromTree (x : Nat) : Nat := (x - 1) / 2

/-- `TreeNodeIndex::new` — treemath.rs:183-189 (with `LeafNodeIndex::from_tree_index`, 60-63). -/
def TreeNodeIndex.new (x : Nat) : TreeNodeIndex :=
  if x % 2 = 0 then .leaf (x / 2) else .inner (innerFromTree x)

/-- `TreeNodeIndex::u32` — treemath.rs:192-197. -/
def TreeNodeIndex.u32 : TreeNodeIndex → Nat
  | .leaf i => leafToTree i
  | .inner i => innerToTree i

/-- The loop of `log2` — treemath.rs:298-301: `while (x >> k) > 0 { k += 1 }`. -/
def log2Loop (x k : Nat) : Nat :=
  if x >>> k > 0 then log2Loop x (k + 1) else k
termination_by x >>> k
decreasing_by
  rename_i h
  rw [Nat.shiftRight_succ]
  omega

/-- `log2` — treemath.rs:294-303. -/
def log2 (x : Nat) : Nat :=
  if x = 0 then 0 else log2Loop x 0 - 1

/-- The loop of `level` — treemath.rs:310-313: `while ((x >> k) & 1) == 1 { k += 1 }`. -/
def levelLoop (x k : Nat) : Nat :=
  if (x >>> k) &&& 1 = 1 then levelLoop x (k + 1) else k
termination_by x >>> k
decreasing_by
  rename_i h
  rw [Nat.shiftRight_succ]
  rw [Nat.and_one_is_mod] at h
  generalize x >>> k = y at *
  omega

/-- `level` — treemath.rs:305-315. -/
def level (x : Nat) : Nat :=
  if x &&& 1 = 0 then 0 else levelLoop x 0

/-- `TreeSize::new` — treemath.rs:219-222. A `TreeSize` is its inner `u32`. -/
def TreeSize.new (nodes : Nat) : Nat := (1 <<< (log2 nodes + 1)) - 1

/-- `TreeSize::from_leaf_count` — treemath.rs:225-227. -/
def TreeSize.fromLeafCount (n : Nat) : Nat := TreeSize.new (n * 2)

/-- `TreeSize::leaf_count` — treemath.rs:230-232. -/
def TreeSize.leafCount (s : Nat) : Nat := s / 2 + 1

/-- `TreeSize::inner_node_count` — treemath.rs:235-237. -/
def TreeSize.innerNodeCount (s : Nat) : Nat := s / 2

/-- `TreeSize::inc` — treemath.rs:253-255. -/
def TreeSize.inc (s : Nat) : Nat := s * 2 + 1

/-- `root` — treemath.rs:317-321. -/
def root (size : Nat) : TreeNodeIndex := .new ((1 <<< log2 size) - 1)

/-- `left` — treemath.rs:323-329; the argument is an inner index. -/
def left (i : Nat) : TreeNodeIndex :=
  let x := innerToTree i
  let k := level x
  .new (x ^^^ (1 <<< (k - 1)))

/-- `right` — treemath.rs:331-337. -/
def right (i : Nat) : TreeNodeIndex :=
  let x := innerToTree i
  let k := level x
  .new (x ^^^ (3 <<< (k - 1)))

/-- `parent` — treemath.rs:341-347; the result is an inner index. -/
def parent (n : TreeNodeIndex) : Nat :=
  let x := n.u32
  let k := level x
  let b := (x >>> (k + 1)) &&& 1
  let index := (x ||| (1 <<< k)) ^^^ (b <<< (k + 1))
  innerFromTree index

/-- `sibling` — treemath.rs:355-362. -/
def sibling (n : TreeNodeIndex) : TreeNodeIndex :=
  let p := parent n
  if n.u32 < innerToTree p then right p else left p

/-- The loop of `direct_path` — treemath.rs:369-375. The Rust loop has no bound; here `fuel`
bounds the number of iterations and `none` stands for a loop still running when it is exhausted
(divergence). That the fuel given by `directPath` always suffices inside a tree is part of C02. -/
def directPathLoop (r : Nat) : Nat → Nat → Option (List Nat)
  | 0, _ => none
  | fuel + 1, x =>
    if x = r then some []
    else
      let p := parent (.new x)
      (directPathLoop r fuel (innerToTree p)).map (p :: ·)

/-- `direct_path` — treemath.rs:366-377 (excludes the node itself). -/
def directPath (n : TreeNodeIndex) (size : Nat) : Option (List Nat) :=
  directPathLoop (root size).u32 (size + 1) n.u32

/-- `is_node_in_tree` — treemath.rs:381-383. -/
def isNodeInTree (n : TreeNodeIndex) (size : Nat) : Bool := n.u32 < size

end Verif.TreeMath
