/-! # The locks the calls take

A device is shared by calls that run at the same time. Each of its parts is behind a `futures::lock::Mutex` (keyhive_core/src/keyhive.rs:98-130): taking a lock that somebody holds, be it the same call, waits until it is free. Here a call is the list of the locks it takes and frees, in order.

Simplifications. Which locks a call takes depends on who is a member of what; this is one fixed table `M` for all the calls that run at the same time. A walk through the members is cut after any number of steps instead of by the set of those seen. What calls do between two locks is left out, and they succeed: an error frees the locks earlier. The locks of the map of the individuals, of the stores of delegations and revocations, of the pending events and of the ciphertext store are left out, and so are the calls not listed here. -/

namespace Verif.Keyhive.Locks

/-- Somebody who can be a member (keyhive_core/src/principal/agent.rs:37-47): the own agent, another individual, or a group or document. -/
inductive Node
  | active
  | person (i : Nat)
  | membered (i : Nat)
deriving DecidableEq, Repr

/-- The locks (keyhive_core/src/keyhive.rs:98-130; keyhive_core/src/principal/active.rs:60-65): the own agent, the own individual, the own prekey pairs, the map of the documents, the map of the groups, the random numbers, each other individual, each group and document. -/
inductive Lock
  | active
  | self
  | pairs
  | docs
  | groups
  | csprng
  | person (i : Nat)
  | membered (i : Nat)
deriving DecidableEq, Repr

/-- What a call does with a lock: `lock().await`, and dropping the guard. -/
inductive Act
  | take (l : Lock)
  | free (l : Lock)
deriving DecidableEq, Repr

/-- A call on its way: the locks it holds and what it has still to do. -/
structure Task where
  held : List Lock
  left : List Act
deriving DecidableEq, Repr

/-- Whether nobody holds the lock (`futures::lock::Mutex`; it is not reentrant). -/
def isFree (ts : List Task) (l : Lock) : Bool :=
  ts.all (fun t => !t.held.contains l)

/-- Whether the call can go on: it is not finished and does not wait for a lock. -/
def canMove (ts : List Task) (t : Task) : Bool :=
  match t.left with
  | [] => false
  | .take l :: _ => isFree ts l
  | .free _ :: _ => true

/-- The call takes or frees the next lock. -/
def Task.move (t : Task) : Task :=
  match t.left with
  | [] => t
  | .take l :: as => ⟨l :: t.held, as⟩
  | .free l :: as => ⟨t.held.erase l, as⟩

/-- The executor polls call `i`: it goes on if it can. -/
def poll (ts : List Task) (i : Nat) : List Task :=
  match ts[i]? with
  | none => ts
  | some t => if canMove ts t then ts.set i t.move else ts

/-- The executor polls the calls in this order. -/
def polls (ts : List Task) (sched : List Nat) : List Task :=
  sched.foldl poll ts

/-- The calls before they start. -/
def begin (calls : List (List Act)) : List Task :=
  calls.map (fun c => ⟨[], c⟩)

/-- Taking a lock for a moment: `x.lock().await.…` in one statement or block. -/
def touch (l : Lock) : List Act := [.take l, .free l]

/-- Holding a lock while doing something. -/
def holding (l : Lock) (as : List Act) : List Act := .take l :: (as ++ [.free l])

/-- The groups and documents among the members. -/
def memberedOf (ns : List Node) : List Nat :=
  ns.filterMap (fun | .membered i => some i | _ => none)

variable (M : Nat → List Node)

/-- The locks of `Group::transitive_members` on `root`, whose lock the caller holds: of each group and document below it, other than `root` (keyhive_core/src/principal/group.rs:271-350). Taking the lock of one several times in a row, for its members and for the capability of each (group.rs:326-330), counts as taking it once. -/
def walk (root : Nat) : Nat → List Node → List Act
  | 0, _ => []
  | _, [] => []
  | n + 1, .membered v :: st =>
    if v = root then walk root n st else touch (.membered v) ++ walk root n (M v ++ st)
  | n + 1, _ :: st => walk root n st

/-- The group or document is locked and its members are walked through (keyhive_core/src/keyhive.rs:755-763; membered.rs:101-106). -/
def listMembers (n : Nat) (r : Nat) : List Act :=
  holding (.membered r) (walk M r n (M r))

/-- The locks of `Agent::pick_individual_prekeys` (keyhive_core/src/principal/agent.rs:122-172): of everybody met, the own agent with its individual inside (active.rs:172-175). -/
def prekeys : Nat → List Node → List Act
  | 0, _ => []
  | _, [] => []
  | n + 1, .active :: st => holding .active (touch .self) ++ prekeys n st
  | n + 1, .person i :: st => touch (.person i) ++ prekeys n st
  | n + 1, .membered v :: st => touch (.membered v) ++ prekeys n (M v ++ st)

/-- The locks of `Agent::individual_ids` (keyhive_core/src/principal/agent.rs:84-119): of the groups and documents met. -/
def individuals : Nat → List Node → List Act
  | 0, _ => []
  | _, [] => []
  | n + 1, .membered v :: st => touch (.membered v) ++ individuals n (M v ++ st)
  | n + 1, _ :: st => individuals n st

/-- The calls, with what they are given and the documents and groups of the device at that time. -/
inductive Call
  | reachableMembers (r : Nat)
  | docsReachableBy (docs : List Nat)
  | reachableDocs (docs : List Nat)
  | memberedReachableBy (groups docs : List Nat)
  | encrypt (d : Nat)
  | decrypt (d : Nat)
  | receiveAddOfMe (d : Nat)
  | receiveOtherAdd (d : Nat)
  | receiveKeyOp (d : Nat)
  | addToDoc (d : Nat) (delegate : Node) (others : List Nat) (indirect : Bool)
  | addToGroup (g : Nat) (delegate : Node) (others docs : List Nat) (indirect : Bool)
  | revokeFromDoc (d : Nat) (delegates : List Node) (docs : List Nat)
  | revokeFromGroup (g : Nat) (delegates : List Node) (docs : List Nat)
  | generateDoc (coparents : List Node)
  | generateGroup
  | rotatePrekey
  | expandPrekeys
  | contactCard
  | receiveForGroup (g : Nat)
  | receiveForDoc (d : Nat)
  | receiveRevUnknown

/-- `Keyhive::docs_reachable_by_agent` (keyhive_core/src/keyhive.rs:766-788): the list of documents is taken, then each is locked while its members are walked through. -/
def docsReachable (n : Nat) (docs : List Nat) : List Act :=
  touch .docs ++ docs.flatMap (listMembers M n)

/-- The search for a member through which the signer, who is no direct member, is entitled (keyhive_core/src/principal/group.rs:488-524). -/
def indirectly (n : Nat) (r : Nat) (indirect : Bool) : List Act :=
  if indirect then (memberedOf (M r)).flatMap (listMembers M n) else []

/-- `Active::rotate_prekey` (keyhive_core/src/principal/active.rs:178-217), with the own agent locked. -/
def rotating : List Act := touch .csprng ++ touch .pairs ++ touch .self

/-- The locks of each call, in order:
* `reachable_members` (keyhive_core/src/keyhive.rs:755-763), `docs_reachable_by_agent` (766-788);
* `reachable_docs` (746-751), which holds the own agent all the time;
* `membered_reachable_by_agent` (792-824);
* `try_encrypt_content_keyed` and `force_pcs_update` (663-687, 730-743); `try_decrypt_content` and the other calls that lock one document (692-728);
* `receive_cgka_op` (1781-1833): for an addition of the own agent, of somebody else (the own agent is locked to compare the ids; if it is the public individual the document is locked inside, as for the own agent but without the pairs), and for the other operations;
* `add_member` to a document (keyhive.rs:537-542; document.rs:230-272) and to a group (keyhive.rs:490-536; group.rs:444-464), giving the right to read. The locks `join_all` takes at the same time (document.rs:238-247) are taken one after the other;
* `revoke_member` from a document and from a group (keyhive.rs:556-640). The former walks, with the document locked, through the one revoked and through the members that are left (document.rs:292-345), for which the table has the members before. The signer of a revocation is entitled directly, so that giving the others their access again (group.rs: revoke_member with `retain_all_other_members`) takes no locks of members;
* `generate_doc` (keyhive.rs:271-316): `Document::generate` (document.rs:157-225) holds the random numbers while the prekeys of all members of the new document are picked (group.rs:245-264), of whom the own agent is the first. That the coparents are registered is left out;
* `generate_group` (keyhive.rs:248-266): the guard of the own agent, a temporary of the statement, is held until `Group::generate` (group.rs:133-156), which locks the random numbers, has returned;
* `rotate_prekey`, `expand_prekeys`, `contact_card` (keyhive.rs:318-327, 374-393; active.rs:156-260);
* `receive_delegation` for a group and for a document that is known (keyhive.rs:1622-1636): the guards of the maps, temporaries of the `if let`, are held until its end, that of the groups also in the `else` (edition 2021). `receive_revocation` (keyhive.rs:1704-1714) takes the same locks;
* `receive_revocation` for somebody unknown (keyhive.rs:1724-1741), which locks the map of the groups once more while it is held (C36). -/
def Call.acts (n : Nat) : Call → List Act
  | .reachableMembers r => listMembers M n r
  | .docsReachableBy docs => docsReachable M n docs
  | .reachableDocs docs => holding .active (docsReachable M n docs)
  | .memberedReachableBy groups docs =>
    touch .groups ++ groups.flatMap (listMembers M n) ++ docsReachable M n docs
  | .encrypt d => touch .active ++ holding .csprng (touch (.membered d))
  | .decrypt d => touch (.membered d)
  | .receiveAddOfMe d => touch .docs ++ holding .active (touch .pairs ++ touch (.membered d))
  | .receiveOtherAdd d => touch .docs ++ touch .active ++ touch (.membered d)
  | .receiveKeyOp d => touch .docs ++ touch (.membered d)
  | .addToDoc d delegate others indirect =>
    touch .active ++ holding (.membered d)
      (others.flatMap (fun o => touch (.membered o)) ++ indirectly M n d indirect ++ prekeys M n [delegate])
  | .addToGroup g delegate others docs indirect =>
    touch .active ++
      holding (.membered g) (others.flatMap (fun o => touch (.membered o)) ++ indirectly M n g indirect) ++
      touch .docs ++
      docs.flatMap (fun d => listMembers M n d ++ prekeys M n [delegate] ++ touch (.membered d))
  | .revokeFromDoc d delegates docs =>
    holding .active (docsReachable M n docs) ++ docs.flatMap (fun d => touch (.membered d)) ++
      touch .active ++ holding (.membered d) (individuals M n delegates ++ individuals M n (M d))
  | .revokeFromGroup g delegates docs =>
    holding .active (docsReachable M n docs) ++ docs.flatMap (fun d => touch (.membered d)) ++
      touch .active ++ touch (.membered g) ++ individuals M n delegates ++ touch (.membered g) ++
      touch .docs ++ docs.flatMap (fun d => listMembers M n d ++ touch (.membered d))
  | .generateDoc coparents =>
    touch .active ++ touch .active ++
      holding .csprng (individuals M n (.active :: coparents) ++ prekeys M n (.active :: coparents)) ++ touch .docs
  | .generateGroup => holding .active (touch .csprng) ++ touch .groups
  | .rotatePrekey => holding .active rotating
  | .expandPrekeys => holding .active (touch .csprng ++ touch .self ++ touch .pairs)
  | .contactCard => holding .active (touch .self ++ rotating ++ rotating)
  | .receiveForGroup g => holding .groups (touch (.membered g))
  | .receiveForDoc d => holding .groups (holding .docs (touch (.membered d)))
  | .receiveRevUnknown => holding .groups (holding .docs (touch .groups))

end Verif.Keyhive.Locks
