import Verif.Util.AMap

/-!
# Model of `keyhive_core/src/transact.rs`, `transact/fork.rs`, `transact/merge.rs`
-/

namespace Verif.Transact

/-- `Fork` + `Merge` — transact/fork.rs:18-31, transact/merge.rs:15-24. -/
structure Mergeable (T F : Type) where
  fork : T → F
  merge : T → F → T

/-- `transact_blocking` — transact.rs:38-46. The body maps the fork to a new fork or an error; the
result is the trunk afterwards, paired with the error if any. -/
def transactBlocking {T F E : Type} (M : Mergeable T F) (trunk : T) (tx : F → Except E F) :
    T × Option E :=
  match tx (M.fork trunk) with
  | .error e => (trunk, some e)
  | .ok forked => (M.merge trunk forked, none)

/-- `Fork`/`Merge for HashSet` — transact/fork.rs:51-57, transact/merge.rs:43-47. -/
def setMergeable (A : Type) [DecidableEq A] : Mergeable (List A) (List A) where
  fork s := s
  merge s f := sextend s f

/-- `Fork`/`Merge for HashMap` — transact/fork.rs:59-65, transact/merge.rs:49-55. -/
def mapMergeable (K V : Type) [DecidableEq K] : Mergeable (AMap K V) (AMap K V) where
  fork m := m
  merge m f := f.foldl (fun acc p => AMap.orInsert acc p.1 p.2) m

/-- A scheduler over `transact_async` (transact.rs:135-150): any number of transactions, each of
which first forks the trunk, and later finishes with a fork (merged) or an error (dropped). The
points at which the two steps happen are arbitrary, which covers every interleaving of the two
lock-protected sections of `transact_async`. -/
inductive Step (F : Type) where
  /-- transaction `i` takes its fork -/
  | begin (i : Nat)
  /-- transaction `i` finishes, its body having mapped its fork with `body` -/
  | finish (i : Nat) (body : F → Option F)

/-- Scheduler state: trunk and outstanding forks. -/
structure Sched (T F : Type) where
  trunk : T
  open_ : AMap Nat F

/-- One scheduler step (transact.rs:143-150). Finishing an unknown transaction does nothing. -/
def Sched.step {T F : Type} (M : Mergeable T F) (s : Sched T F) : Step F → Sched T F
  | .begin i => { s with open_ := AMap.insert s.open_ i (M.fork s.trunk) }
  | .finish i body =>
    match AMap.get s.open_ i with
    | none => s
    | some f =>
      match body f with
      | none => { s with open_ := AMap.erase s.open_ i }
      | some f' => { trunk := M.merge s.trunk f', open_ := AMap.erase s.open_ i }

/-- A whole schedule. -/
def Sched.run {T F : Type} (M : Mergeable T F) (s : Sched T F) (l : List (Step F)) : Sched T F :=
  l.foldl (Sched.step M) s

end Verif.Transact
