import Verif.Cgka.Topo
import Verif.BeeKem.Tree

/-!
# Model of `beekem/src/operation.rs`

`H : SOp → Nat` stands for `Digest::hash` on signed operations, digests being ordered like their
bytes (`Ord for Digest`). `doc_id` is dropped: nothing in this file or in cgka.rs compares it.
-/

namespace Verif.Cgka

open Verif.BeeKem

/-- `CgkaOperation` — operation.rs:53-77. -/
inductive Payload where
  | add (id : MemberId) (pk : Pk) (leafIndex : Nat) (preds addPreds : List Nat)
  | remove (id : MemberId) (leafIdx : Nat) (removedKeys : List Pk) (preds : List Nat)
  | update (id : MemberId) (newPath : PathChange) (preds : List Nat)
deriving DecidableEq, Repr

/-- `Signed<CgkaOperation>` — keyhive_crypto/src/signed.rs:30-44. -/
structure SOp where
  payload : Payload
  issuer : Nat
  signature : Nat
deriving DecidableEq, Repr

/-- `CgkaOperation::predecessors` (a set) — operation.rs:93-103. -/
def Payload.preds : Payload → List Nat
  | .add _ _ _ p _ => sextend [] p
  | .remove _ _ _ p => sextend [] p
  | .update _ _ p => sextend [] p

/-- The `add_predecessors` field of an `Add`, else empty. -/
def Payload.addPreds : Payload → List Nat
  | .add _ _ _ _ p => p
  | _ => []

/-- `matches!(op, CgkaOperation::Add { .. })`. -/
def Payload.isAdd : Payload → Bool
  | .add .. => true
  | _ => false

/-- `matches!(op, Add | Remove)` — cgka.rs:391-394. -/
def Payload.isStructural : Payload → Bool
  | .update .. => false
  | _ => true

/-- `CgkaOperation::init_add` — operation.rs:80-90. -/
def Payload.initAdd (id : MemberId) (pk : Pk) : Payload := .add id pk 0 [] []

/-- `CgkaOperationGraph` — operation.rs:118-128. -/
structure Graph where
  ops : AMap Nat SOp
  preds : AMap Nat (List Nat)
  heads : List Nat
  addHeads : List Nat
deriving DecidableEq, Repr

namespace Graph

/-- `CgkaOperationGraph::new` — operation.rs:170-177. -/
def new : Graph := ⟨[], [], [], []⟩

/-- `Merge for CgkaOperationGraph` — operation.rs:158-167. -/
def merge (g fork : Graph) : Graph :=
  { ops := fork.ops.foldl (fun acc p => AMap.orInsert acc p.1 p.2) g.ops
    preds := fork.preds.foldl (fun acc p => AMap.insert acc p.1 p.2) g.preds
    heads := sextend g.heads fork.heads
    addHeads := sextend g.addHeads fork.addHeads }

/-- `contains_op_hash` — operation.rs:179-181. -/
def containsOpHash (g : Graph) (h : Nat) : Bool := AMap.contains g.ops h

/-- `contains_predecessors` — operation.rs:183-185. -/
def containsPredecessors (g : Graph) (ps : List Nat) : Bool := ps.all (fun h => AMap.contains g.ops h)

/-- `has_single_head` — operation.rs:188-190. -/
def hasSingleHead (g : Graph) : Bool := decide (g.heads.length = 1)

/-- `add_op_and_update_heads` — operation.rs:206-242. -/
def addOpAndUpdateHeads (H : SOp → Nat) (g : Graph) (op : SOp) (external : Option (List Nat)) : Graph :=
  let h := H op
  let ops := AMap.insert g.ops h op
  match external with
  | some hs =>
    let heads := hs.foldl sremove g.heads
    let addHeads := op.payload.addPreds.foldl sremove g.addHeads
    { ops, preds := AMap.insert g.preds h (sextend [] hs), heads := sinsert heads h,
      addHeads := if op.payload.isAdd then sinsert addHeads h else addHeads }
  | none =>
    { ops, preds := AMap.insert g.preds h (sextend [] g.heads), heads := [h],
      addHeads := if op.payload.isAdd then [h] else g.addHeads }

/-- `add_local_op` — operation.rs:193-195. -/
def addLocalOp (H : SOp → Nat) (g : Graph) (op : SOp) : Graph := addOpAndUpdateHeads H g op none

/-- `add_op` — operation.rs:198-204. -/
def addOp (H : SOp → Nat) (g : Graph) (op : SOp) (hs : List Nat) : Graph :=
  addOpAndUpdateHeads H g op (some hs)

/-- `heads_contained_in` — operation.rs:244-246. -/
def headsContainedIn (g : Graph) (hs : List Nat) : Bool := g.heads.all (fun h => decide (h ∈ hs))

/-- State of the backward scan in `topsort_for_heads` — operation.rs:271-281. -/
structure Scan where
  frontier : List Nat
  seen : List Nat
  topo : TopoSort
  succs : AMap Nat (List Nat)

/-- Loop body over the predecessors of `opHash` — operation.rs:286-294. -/
def scanPred (opHash : Nat) (s : Scan) (p : Nat) : Scan :=
  let topo := s.topo.addDependency p opHash
  let s1 := AMap.orInsert s.succs p []
  let succs := AMap.insert s1 p (sinsert ((AMap.get s1 p).getD []) opHash)
  if p ∈ s.seen then { s with topo, succs }
  else { frontier := s.frontier ++ [p], seen := sinsert s.seen p, topo, succs }

/-- `while let Some(op_hash) = frontier.pop_front()` — operation.rs:282-295. -/
def scanLoop (g : Graph) : Nat → Scan → Res Scan
  | 0, _ => .error .diverge
  | fuel + 1, s =>
    match s.frontier with
    | [] => .ok s
    | h :: rest =>
      match AMap.get g.preds h with
      | none => .error .operationNotFound
      | some ps => scanLoop g fuel (ps.foldl (scanPred h) { s with frontier := rest })

/-- Initial scan state — operation.rs:276-280. -/
def scanStart (heads : List Nat) : Scan :=
  { frontier := heads, seen := sextend [] heads, topo := .new,
    succs := heads.foldl (fun m h => AMap.insert m h []) [] }

/-- State of the epoch loop — operation.rs:315-316. -/
structure Rounds where
  topo : TopoSort
  succs : AMap Nat (List Nat)
  epochHeads : List Nat
  cur : List Nat
  out : List (List Nat)

/-- `if successors[hash].is_empty() { successors[hash].insert(hash) }` — operation.rs:322-327. -/
def markSink (succs : AMap Nat (List Nat)) (h : Nat) : AMap Nat (List Nat) :=
  if ((AMap.get succs h).getD []).isEmpty then AMap.insert succs h [h] else succs

/-- `for h in epoch_heads { if hash != h { successors[h].remove(hash) } }` — operation.rs:330-335. -/
def closeOne (eh : List Nat) (succs : AMap Nat (List Nat)) (hash : Nat) : AMap Nat (List Nat) :=
  eh.foldl (fun m h => if hash = h then m else AMap.insert m h (sremove ((AMap.get m h).getD []) hash)) succs

/-- One iteration of `while !dependencies.is_empty()` — operation.rs:317-373. The `expect`s on
`successors` are checked at the beginning of the iteration; operations are looked up at the end of the
whole sort instead of inside the loop. -/
def round (s : Rounds) : Res Rounds :=
  let (topo, popped) := s.topo.popAll
  let next := isort (fun a b => decide (a ≤ b)) popped
  let eh := sextend s.epochHeads next
  if !(eh.all (fun h => AMap.contains s.succs h)) then .error (.panic "hash to be present")
  else
    let succs := next.foldl (closeOne eh) (next.foldl markSink s.succs)
    let eh' := eh.filter (fun h => !((AMap.get succs h).getD []).isEmpty)
    if eh'.length ≤ 1 then
      .ok { topo, succs, epochHeads := eh', cur := [],
            out := s.out ++ (if s.cur.isEmpty then [] else [s.cur]) ++ (if next.isEmpty then [] else [next]) }
    else .ok { topo, succs, epochHeads := eh', cur := s.cur ++ next, out := s.out }

/-- The epoch loop — operation.rs:317-373. -/
def roundLoop : Nat → Rounds → Res Rounds
  | 0, _ => .error .diverge
  | fuel + 1, s =>
    if s.topo.isEmpty then .ok s
    else do roundLoop fuel (← round s)

/-- `self.cgka_ops.get(hash)` for every hash. -/
def lookupAll (g : Graph) (e : CgkaError) : List Nat → Res (List SOp)
  | [] => .ok []
  | h :: hs => match AMap.get g.ops h with
    | none => .error e
    | some o => do pure (o :: (← lookupAll g e hs))

/-- `lookupAll` on every epoch. -/
def lookupEpochs (g : Graph) : List (List Nat) → Res (List (List SOp))
  | [] => .ok []
  | e :: es => do
    let ops ← lookupAll g .operationNotFound e
    pure (ops :: (← lookupEpochs g es))

/-- The order computed by `topsort_for_heads`, as digests — operation.rs:270-383. -/
def sortHashes (g : Graph) (heads : List Nat) : Res (List (List Nat)) := do
  let s ← scanLoop g (g.preds.length + 2) (scanStart heads)
  if s.topo.isEmpty then
    if heads.isEmpty then .error (.panic "to have at least one op hash") else pure [heads]
  else do
    let r ← roundLoop (s.topo.deps.length + 1)
      { topo := s.topo, succs := s.succs, epochHeads := [], cur := [], out := [] }
    pure (if r.cur.isEmpty then r.out else r.out ++ [r.cur])

/-- `topsort_for_heads` — operation.rs:266-385. The result is non-empty lists. -/
def topsortForHeads (g : Graph) (heads : List Nat) : Res (List (List SOp)) := do
  let hs ← g.sortHashes heads
  g.lookupEpochs hs

/-- `topsort_graph` — operation.rs:261-263. -/
def topsortGraph (g : Graph) : Res (List (List SOp)) := g.topsortForHeads g.heads

end Graph

end Verif.Cgka
