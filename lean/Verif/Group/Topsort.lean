import Verif.Util.AMap
import Verif.Util.Sort

/-!
# Model of `keyhive_core/src/util/topsort.rs`

Nodes are `Nat`s (digests); the Rust nodes are pairs of a digest and a reference to the operation with that digest.
-/

namespace Verif.Group

/-- `Topsort<T>` — topsort.rs:14-24. -/
structure Topsort where
  deps : AMap Nat (List Nat)
  rdeps : AMap Nat (List Nat)
deriving DecidableEq, Repr

namespace Topsort

/-- `Topsort::new` — topsort.rs:27-32. -/
def new : Topsort := ⟨[], []⟩

/-- `map.entry(k).or_default().insert(x)` for a map of sets. -/
def addTo (m : AMap Nat (List Nat)) (k x : Nat) : AMap Nat (List Nat) :=
  AMap.insert m k (sinsert ((AMap.get m k).getD []) x)

/-- `Topsort::add_dependency` — topsort.rs:37-46: `before` must be popped before `after`. -/
def addDependency (t : Topsort) (before after : Nat) : Topsort :=
  { deps := addTo (AMap.orInsert t.deps before []) after before
    rdeps := addTo (AMap.orInsert t.rdeps after []) before after }

/-- `Topsort::add_node` — topsort.rs:49-52. -/
def addNode (t : Topsort) (n : Nat) : Topsort :=
  { deps := AMap.orInsert t.deps n [], rdeps := AMap.orInsert t.rdeps n [] }

/-- `Topsort::is_empty` — topsort.rs:55-57. -/
def isEmpty (t : Topsort) : Bool := t.deps.isEmpty

/-- The nodes without predecessors, sorted — topsort.rs:71-77. -/
def ready (t : Topsort) : List Nat :=
  isort (fun a b => decide (a ≤ b)) ((t.deps.filter (fun p => p.2.isEmpty)).map Prod.fst)

/-- `if let Some(pred_set) = self.deps.get_mut(&succ) { pred_set.remove(node) }` — topsort.rs:83-85. -/
def dropPred (node : Nat) (deps : AMap Nat (List Nat)) (succ : Nat) : AMap Nat (List Nat) :=
  match AMap.get deps succ with
  | none => deps
  | some s => AMap.insert deps succ (sremove s node)

/-- Body of the loop over the ready nodes — topsort.rs:79-88. -/
def popNode (t : Topsort) (node : Nat) : Topsort :=
  let deps := AMap.erase t.deps node
  match AMap.get t.rdeps node with
  | none => { t with deps }
  | some succs => { deps := succs.foldl (dropPred node) deps, rdeps := AMap.erase t.rdeps node }

/-- `Topsort::pop_frontier` — topsort.rs:67-91. -/
def popFrontier (t : Topsort) : List Nat × Topsort :=
  (t.ready, t.ready.foldl popNode t)

end Topsort
end Verif.Group
