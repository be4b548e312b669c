import Verif.Keyhive.Spec

/-!
# Model of the queries a device answers when it syncs with others

`docs_reachable_by_agent`, `membered_reachable_by_agent`, `membership_ops_for_agent`, `cgka_ops_reachable_by_agent`,
`reachable_prekey_ops_for_agent` and the three bulk versions of `keyhive_core/src/keyhive.rs`, with the walk over membership
operations of `keyhive_core/src/principal/group/membership_operation.rs`.

Simplifications:
* The order of lists stands for the unspecified iteration order of `HashMap`s.
* `if !visited.contains(&hash)` before pushing the head of a nested group (keyhive.rs:978, membership_operation.rs:605) is left
  out: an operation that was visited before is skipped when it is popped.
* The bulk query handles the revocations agent by agent (keyhive.rs:1061-1077); here they come in some order. A revocation only
  touches the entries of the agent it is about.
-/

namespace Verif.Group

/-- `AgentId` of an agent — agent.rs:75-82: the active agent's is that of the individual. -/
def Agent.sameAgentId (a b : Agent) : Bool :=
  decide (a.id = b.id) && (decide (a.kind = b.kind) || (!a.isMembered && !b.isMembered))

end Verif.Group

namespace Verif.Keyhive

open Verif.Group Verif.Cgka Verif.BeeKem

namespace Keyhive

/-! ## Reachable groups and documents -/

/-- `locked.transitive_members().await` while holding the lock of the group. The call returns (`Group.Props.C33_transitive_exact`). -/
def listed (k : Keyhive) (g : Group) : AMap Id (Agent × Access) :=
  match transitiveMembers k.world [g.id] g with
  | .ok caps => caps
  | .error _ => []

/-- `if let Some(v) = found { caps.insert(id, v) }`. -/
def note {α : Type} (m : AMap Id α) (i : Id) : Option α → AMap Id α
  | some v => AMap.insert m i v
  | none => m

/-- The groups and the groups of documents. -/
def allGroups (k : Keyhive) : List Group := AMap.values k.groups ++ (AMap.values k.docs).map Doc.group

/-- `docs_reachable_by_agent` — keyhive.rs:766-788, for the agent with this id; `reachable_docs` (745-751) asks for the active agent. -/
def docsReachable (k : Keyhive) (i : Id) : AMap Id Access :=
  (AMap.values k.docs).foldl (fun m d => note m d.group.id ((AMap.get (k.listed d.group) i).map (fun p => p.2))) []

/-- `membered_reachable_by_agent` — keyhive.rs:792-824. -/
def memberedReachable (k : Keyhive) (i : Id) : AMap Id (Group × Access) :=
  k.allGroups.foldl (fun m g => note m g.id ((AMap.get (k.listed g) i).map (fun p => (g, p.2)))) []

/-! ## Membership operations -/

/-- `push_membership_edges` — membership_operation.rs:582-620 and keyhive.rs:964-992. -/
def edges (k : Keyhive) (follow : Bool) : Op → List Op
  | .dlg d =>
    d.proof.toList.map Op.dlg ++ d.after.map Op.rev ++
      if follow && decide (d.delegate.kind = .group) then
        match AMap.get k.groups d.delegate.id with
        | some g => (AMap.values g.dlgHeads).map Op.dlg
        | none => []
      else []
  | .rev r => r.proof.toList.map Op.dlg ++ [.dlg r.revoke]

/-- `while let Some((hash, op)) = heads.pop()` — keyhive.rs:956-993, membership_operation.rs:636-643, 669-676. The head of the list
is the top of the stack; the number bounds the turns. The visited digests are those of the operations found. -/
def walk (E : Env) (next : Op → List Op) : Nat → List Op → AMap Nat Op → AMap Nat Op
  | 0, _, ops => ops
  | _ + 1, [], ops => ops
  | n + 1, o :: stack, ops =>
    if AMap.contains ops (E.opDigest o) then walk E next n stack ops
    else walk E next n ((next o).reverse ++ stack) (AMap.insert ops (E.opDigest o) o)

/-- Everything a walk can meet. -/
def everyOp (k : Keyhive) : List Op :=
  ((k.world.flatMap (fun p => p.2.headOps)) ++ (AMap.values k.revs).map Op.rev).flatMap Op.down

/-- Enough turns (`QueryLemmas.walk_done`). -/
def turns (k : Keyhive) (follow : Bool) (stack : List Op) : Nat :=
  stack.length + (k.everyOp.map (fun o => (k.edges follow o).length)).sum + 1

/-- The loop started with some operations. -/
def collect (E : Env) (k : Keyhive) (follow : Bool) (start : List Op) (ops : AMap Nat Op) : AMap Nat Op :=
  walk E (k.edges follow) (k.turns follow start) start ops

/-- `get_revocations_for_agent` — store/revocation.rs:110-115. That the index holds the revocations in the store that revoke a
delegation to the agent is `RevocationStore.C51_index` in `Verif.Core.Props`. -/
def revsAbout (k : Keyhive) (a : Agent) : List Rev := (AMap.values k.revs).filter (fun r => r.revoke.delegate.sameAgentId a)

/-- `membership_ops_for_agent` — keyhive.rs:919-996. -/
def membershipOpsFor (E : Env) (k : Keyhive) (a : Agent) : AMap Nat Op :=
  k.collect E true (((AMap.values (k.memberedReachable a.id)).flatMap (fun p => p.1.headOps)
    ++ (k.revsAbout a).map Op.rev).reverse) []

end Keyhive

/-- `AllMembershipOps` (membership_operation.rs:503-517), `AllReachablePrekeyOps` and `AllCgkaOps`: results per source, and the
sources of each agent. -/
structure Bulk (α : Type) where
  ops : AMap Id α
  index : AMap Id (List Id)

namespace Bulk
variable {α : Type}

/-- `index.entry(*agent_id).or_default().insert(source_id)` for every agent. -/
def point (m : AMap Id (List Id)) (agents : List Id) (source : Id) : AMap Id (List Id) :=
  agents.foldl (fun m i => Topsort.addTo m i source) m

/-- `ops_for_agent` — membership_operation.rs:533-550 (and the same function of the other two types). -/
def opsFor (b : Bulk α) (i : Id) : Option (List α) := (AMap.get b.index i).map (fun ids => ids.filterMap (AMap.get b.ops))

end Bulk

namespace Keyhive

/-- A turn of phases 1 and 2 — keyhive.rs:1018-1033, 1037-1052. -/
def bulkGroup (E : Env) (k : Keyhive) (b : Bulk (AMap Nat Op)) (g : Group) : Bulk (AMap Nat Op) :=
  { ops := AMap.insert b.ops g.id (k.collect E true g.headOps.reverse [])
    index := Bulk.point b.index (AMap.keys (k.listed g)) g.id }

/-- A turn of phase 3 — keyhive.rs:1061-1077, `bfs_extend_from_revocation` (membership_operation.rs:651-677). -/
def bulkRev (E : Env) (k : Keyhive) (b : Bulk (AMap Nat Op)) (r : Rev) : Bulk (AMap Nat Op) :=
  let i := r.revoke.delegate.id
  { ops := AMap.insert b.ops i (k.collect E false [.rev r] ((AMap.get b.ops i).getD []))
    index := Topsort.addTo b.index i i }

/-- `membership_ops_for_all_agents` — keyhive.rs:1005-1081. -/
def membershipOpsForAll (E : Env) (k : Keyhive) : Bulk (AMap Nat Op) :=
  (AMap.values k.revs).foldl (k.bulkRev E)
    (k.allGroups.foldl (k.bulkGroup E) ⟨[], []⟩)

/-! ## Group-key operations -/

/-- `cgka_ops` of a document — document.rs:442-445, cgka.rs:407-409. -/
def cgkaOps (d : Doc) : Option (List SOp) :=
  match d.cgka with
  | none => none
  | some c =>
    match c.graph.topsortGraph with
    | .error _ => none
    | .ok epochs => some epochs.flatten

/-- `cgka_ops_reachable_by_agent` — keyhive.rs:877-897. -/
def cgkaOpsFor (k : Keyhive) (i : Id) : List (Id × SOp) :=
  (AMap.keys (k.docsReachable i)).flatMap (fun did =>
    match AMap.get k.docs did with
    | none => []
    | some d => ((cgkaOps d).getD []).map (did, ·))

/-- A turn of the loop — keyhive.rs:1314-1343. -/
def bulkCgka (k : Keyhive) (b : Bulk (List (Id × SOp))) (d : Doc) : Bulk (List (Id × SOp)) :=
  match cgkaOps d with
  | none => b
  | some [] => b
  | some ops =>
    { ops := AMap.insert b.ops d.group.id (ops.map (d.group.id, ·))
      index := Bulk.point b.index (AMap.keys (k.listed d.group)) d.group.id }

/-- `cgka_ops_for_all_agents` — keyhive.rs:1309-1346. -/
def cgkaOpsForAll (k : Keyhive) : Bulk (List (Id × SOp)) := (AMap.values k.docs).foldl k.bulkCgka ⟨[], []⟩

/-! ## Prekey operations -/

/-- `Agent::key_ops` — agent.rs:181-200. -/
def keyOps (k : Keyhive) (a : Agent) : Prekey.State :=
  if a.isMembered then
    match AMap.get k.reg.membered a.id with
    | some (some i) => i.state
    | _ => []
  else
    match AMap.get k.reg.indies a.id with
    | some i => i.state
    | none => []

/-- `add_many_keys` — keyhive.rs:1088-1094, `Extend for CaMap` (content_addressed_map.rs:196-203). -/
def addManyKeys (m : AMap Id Prekey.State) (i : Id) (ops : Prekey.State) : AMap Id Prekey.State :=
  AMap.insert m i (ops.foldl (fun s p => AMap.insert s p.1 p.2) ((AMap.get m i).getD []))

/-- A turn for a group or document — keyhive.rs:1117-1133, 1138-1154. -/
def prekeysOf (k : Keyhive) (i : Id) (m : AMap Id Prekey.State) (g : Agent × Group) : AMap Id Prekey.State :=
  let tm := k.listed g.2
  if AMap.contains tm i then
    tm.foldl (fun m p => if AMap.contains m p.1 then m else addManyKeys m p.1 (k.keyOps p.2.1))
      (addManyKeys m g.1.id (k.keyOps g.1))
  else m

/-- The groups and documents as agents. -/
def sources (k : Keyhive) : List (Agent × Group) :=
  (AMap.values k.groups).map (fun g => (⟨.group, g.id⟩, g)) ++
    (AMap.values k.docs).map (fun d => (⟨.document, d.group.id⟩, d.group))

/-- `reachable_prekey_ops_for_agent` before the operations of each agent are sorted — keyhive.rs:1084-1155. -/
def prekeyOpsFor (k : Keyhive) (a : Agent) : AMap Id Prekey.State :=
  k.sources.foldl (k.prekeysOf a.id)
    (addManyKeys (addManyKeys [] k.reg.me (k.keyOps ⟨.active, k.reg.me⟩)) a.id (k.keyOps a))

/-- A membership operation as it travels — `From<MembershipOperation> for Event` and `From<Event> for StaticEvent`. -/
def toEvent (E : Env) : Op → Event
  | .dlg d => .dlg (E.sdlg d)
  | .rev r => .rev (E.srev r)

/-- `static_events_for_agent` — keyhive.rs:838-874, with the operations of each agent sorted by `KeyOp::topsort` (1157-1159). A
sort that does not end (`Prekey.Props.C40_fails`) gives nothing here. -/
def eventsFor (E : Env) (k : Keyhive) (a : Agent) : List Event :=
  (AMap.values (k.membershipOpsFor E a)).map (toEvent E)
    ++ ((AMap.values (k.prekeyOpsFor a)).flatMap (fun s => (Prekey.topsort s.length s).getD [])).map Event.prekey
    ++ (k.cgkaOpsFor a.id).map (fun p => .cgka p.1 p.2)

/-- `if let Entry::Vacant(e) = key_ops_cache.entry(id) { e.insert(ops) }`. -/
def cacheKeys (m : AMap Id Prekey.State) (i : Id) (ops : Prekey.State) : AMap Id Prekey.State := AMap.orInsert m i ops

/-- Phase 2 for a group or document — keyhive.rs:1227-1249. -/
def cacheSource (k : Keyhive) (m : AMap Id Prekey.State) (g : Agent × Group) : AMap Id Prekey.State :=
  (k.listed g.2).foldl (fun m p => cacheKeys m p.1 (k.keyOps p.2.1)) (cacheKeys m g.1.id (k.keyOps g.1))

/-- The registered individuals: the active agent's own may have been removed. -/
def registered (k : Keyhive) : AMap Id Prekey.Indie := k.reg.indies.filter (fun p => !(k.unlisted && decide (p.1 = k.reg.me)))

/-- Phase 3 for a group or document — keyhive.rs:1278-1298. -/
def pointSource (k : Keyhive) (m : AMap Id (List Id)) (g : Agent × Group) : AMap Id (List Id) :=
  let ids := AMap.keys (k.listed g.2)
  ids.foldl (fun m i => ([k.reg.me, i, g.1.id] ++ ids).foldl (fun m x => Topsort.addTo m i x) m) m

/-- `reachable_prekey_ops_for_all_agents` before sorting — keyhive.rs:1172-1301. -/
def prekeyOpsForAll (k : Keyhive) : Bulk Prekey.State :=
  { ops := k.registered.foldl (fun m p => cacheKeys m p.1 p.2.state)
      (k.sources.foldl k.cacheSource (AMap.insert [] k.reg.me (k.keyOps ⟨.active, k.reg.me⟩)))
    index := k.sources.foldl k.pointSource
      (k.registered.foldl (fun m p => Topsort.addTo (Topsort.addTo m p.1 k.reg.me) p.1 p.1) (Topsort.addTo [] k.reg.me k.reg.me)) }

/-! ## For the specification -/

/-- An agent met under an id by the prekey queries about `a`: the active agent, `a`, a group or document, a member of one, or a
registered individual. -/
inductive Met (k : Keyhive) (a : Agent) : Id → Agent → Prop
  | me : Met k a k.reg.me ⟨.active, k.reg.me⟩
  | asked : Met k a a.id a
  | source {b g} : (b, g) ∈ k.sources → Met k a b.id b
  | member {b g i c x} : (b, g) ∈ k.sources → (i, c, x) ∈ k.listed g → Met k a i c
  | registered {i p} : (i, p) ∈ k.registered → Met k a i ⟨.individual, i⟩

end Keyhive

end Verif.Keyhive
