import Verif.Util.AMap
import Verif.Util.Sort

/-!
# Model of `beekem/src/topsort.rs`

`keyhive_core/src/util/topsort.rs` (used for membership operations and events) is the same code.
-/

namespace Verif.Cgka

/-- `TopologicalSort<T>` — topsort.rs:10-15. -/
structure TopoSort where
  deps : AMap Nat (List Nat)
  rdeps : AMap Nat (List Nat)
deriving DecidableEq, Repr

namespace TopoSort

/-- `TopologicalSort::new` — topsort.rs:19-24. -/
def new : TopoSort := ⟨[], []⟩

/-- `TopologicalSort::add_dependency` — topsort.rs:27-39. -/
def addDependency (t : TopoSort) (dependency dependent : Nat) : TopoSort :=
  let d1 := AMap.orInsert t.deps dependency []
  let d2 := AMap.insert d1 dependent (sinsert ((AMap.get d1 dependent).getD []) dependency)
  let r1 := AMap.orInsert t.rdeps dependent []
  let r2 := AMap.insert r1 dependency (sinsert ((AMap.get r1 dependency).getD []) dependent)
  ⟨d2, r2⟩

/-- `TopologicalSort::is_empty` — topsort.rs:42-44. -/
def isEmpty (t : TopoSort) : Bool := t.deps.isEmpty

/-- `dep_set.remove(node)` for one dependent — topsort.rs:61-63. -/
def dropDep (node : Nat) (deps : AMap Nat (List Nat)) (dep : Nat) : AMap Nat (List Nat) :=
  match AMap.get deps dep with
  | none => deps
  | some ds => AMap.insert deps dep (sremove ds node)

/-- Loop body of `pop_all` — topsort.rs:57-67. -/
def popNode (t : TopoSort) (node : Nat) : TopoSort :=
  let deps := AMap.erase t.deps node
  match AMap.get t.rdeps node with
  | none => ⟨deps, t.rdeps⟩
  | some dependents => ⟨dependents.foldl (dropDep node) deps, AMap.erase t.rdeps node⟩

/-- The nodes without remaining dependencies — topsort.rs:50-55. -/
def ready (t : TopoSort) : List Nat := (t.deps.filter (fun p => p.2.isEmpty)).map (·.1)

/-- `TopologicalSort::pop_all` — topsort.rs:49-70. (The doc comment says the result is sorted; it is
not.) -/
def popAll (t : TopoSort) : TopoSort × List Nat := (t.ready.foldl popNode t, t.ready)

end TopoSort

end Verif.Cgka
