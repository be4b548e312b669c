import Verif.Group.Sort

/-!
# Model of groups

Models `keyhive_core/src/principal/group.rs` and `keyhive_core/src/principal/group/state.rs`. Documents contain a group and
forward to it (document.rs:230-339), so a document's membership is a `Group` here too.

Simplifications:
* `Arc<Mutex<_>>` handles of agents are ids, resolved in a `World`. Locking a group that is already locked by the running
  call (`futures::lock::Mutex` is not re-entrant) is the error `deadlock`: the call never returns.
* Compiled without debug assertions, so `debug_assert!(false)` in `rebuild` is a no-op.
* The stores of all known delegations and revocations, shared by all groups, are not part of a `Group`; group code only
  ever inserts into them.
* Listener calls are dropped.
-/

namespace Verif.Group

/-- Errors of the modelled functions: `AddError` (group/error.rs:3-13), `AddGroupMemberError` and `RevokeMemberError`
(group.rs:949-982). -/
inductive Err where
  | invalidSubject
  | escalation (claimed proof : Access)
  | invalidProofChain
  | accessEscalation (wanted have_ : Access)
  | noProof
  | signing
  | deadlock
deriving DecidableEq, Repr

/-- `Group` with its `GroupState` — group.rs:65-86, group/state.rs:27-42. -/
structure Group where
  id : Id
  members : AMap Id (List Dlg)
  active : AMap Nat Rev
  dlgHeads : CaMap Nat Dlg
  revHeads : CaMap Nat Rev
deriving DecidableEq

/-- Local variables of `rebuild` — group.rs:750-759. -/
structure View where
  members : AMap Id (List Dlg)
  active : AMap Nat Rev
  inPlay : AMap Nat Dlg
  revoked : List Nat
  rdeps : AMap Nat (List Nat)
deriving DecidableEq

namespace View

/-- Start of `rebuild`. -/
def empty : View := ⟨[], [], [], [], []⟩

/-- The proof is not usable directly: revoked, or not (or no longer) in play — group.rs:781-783, 815-817. -/
def lost (v : View) (p : Dlg) : Bool := decide (p.sig ∈ v.revoked) || !AMap.contains v.inPlay p.sig

/-- A delegation is not skipped — group.rs:770-798. -/
def admits (gid : Id) (v : View) (d : Dlg) : Bool :=
  match d.proof with
  | none => decide (d.issuer = gid)
  | some p =>
    if v.lost p then
      match AMap.get v.members p.issuer with
      | some alts => !((alts.filter (fun a => !a.same p)).all (fun a => decide (a.can < p.can)))
      | none => decide (p.issuer = gid)
    else true

/-- `reverse_dlg_dep_map` entry — group.rs:771-776. -/
def noteProof (v : View) (d : Dlg) : View :=
  match d.proof with
  | none => v
  | some p => { v with rdeps := Topsort.addTo v.rdeps p.sig d.sig }

/-- `dlgs_in_play.insert`, and the entry in `members` — group.rs:804-811. -/
def play (v : View) (d : Dlg) : View :=
  { v with
    inPlay := AMap.insert v.inPlay d.sig d
    members := AMap.insert v.members d.delegate.id (((AMap.get v.members d.delegate.id).getD []) ++ [d]) }

/-- A delegation — group.rs:768-812. -/
def delegation (gid : Id) (v : View) (d : Dlg) : View :=
  let v := v.noteProof d
  if !v.admits gid d then v
  else if d.sig ∈ v.revoked then v
  else v.play d

/-- A revocation is not skipped — group.rs:814-830. -/
def honours (gid : Id) (v : View) (r : Rev) : Bool :=
  match r.proof with
  | none => decide (r.issuer = gid)
  | some p =>
    if v.lost p then
      match AMap.get v.members p.issuer with
      | some alts => alts.any (fun a => decide (p.can ≤ a.can))
      | none => true
    else true

/-- Local state of the revocation loop. -/
structure Casc where
  inPlay : AMap Nat Dlg
  revoked : List Nat
  drop : List (Id × Nat)   -- `to_drop`
  next : List Nat          -- `next_to_revoke`; its top is the head

/-- Body of the loop over the delegations that name the revoked one as proof — group.rs:847-853. -/
def cascDep (c : Casc) (dep : Nat) : Casc :=
  match AMap.get c.inPlay dep with
  | none => { c with revoked := sinsert c.revoked dep }
  | some _ => { c with revoked := sinsert c.revoked dep, inPlay := AMap.erase c.inPlay dep, next := dep :: c.next }

/-- One turn of `while let Some(sig_to_revoke) = next_to_revoke.pop()` — group.rs:839-855. -/
def cascStep (rdeps : AMap Nat (List Nat)) (c : Casc) (s : Nat) : Casc :=
  let c := { c with revoked := sinsert c.revoked s }
  let c := match AMap.get c.inPlay s with
    | none => c
    | some d => { c with inPlay := AMap.erase c.inPlay s, drop := c.drop ++ [(d.delegate.id, s)] }
  ((AMap.get rdeps s).getD []).foldl cascDep c

/-- The loop — group.rs:839-855. Only delegations removed from `dlgs_in_play` are pushed, which bounds the turns. -/
def casc (rdeps : AMap Nat (List Nat)) : Nat → Casc → Casc
  | 0, c => c
  | n + 1, c =>
    match c.next with
    | [] => c
    | s :: rest => casc rdeps n (cascStep rdeps { c with next := rest } s)

/-- One entry of `to_drop` — group.rs:857-874. -/
def dropMember (m : AMap Id (List Dlg)) (p : Id × Nat) : AMap Id (List Dlg) :=
  match ((AMap.get m p.1).getD []).filter (fun d => decide (d.sig ≠ p.2)) with
  | [] => AMap.erase m p.1
  | l => AMap.insert m p.1 l

/-- A revocation — group.rs:813-875. -/
def revocation (gid : Id) (v : View) (r : Rev) : View :=
  if !v.honours gid r then v
  else
    let c := casc v.rdeps (v.inPlay.length + 1) ⟨v.inPlay, v.revoked, [], [r.revoke.sig]⟩
    { v with
      active := AMap.insert v.active r.sig r
      inPlay := c.inPlay
      revoked := c.revoked
      members := c.drop.foldl dropMember v.members }

/-- One turn of `while let Some((_, op)) = ops.pop()` — group.rs:766-877. -/
def apply (gid : Id) (v : View) : Op → View
  | .dlg d => v.delegation gid d
  | .rev r => v.revocation gid r

/-- The whole loop, in processing order. -/
def replay (gid : Id) (ops : List Op) : View := ops.foldl (apply gid) empty

end View

/-- The keys of a `World` are the groups and documents that exist. -/
abbrev World := AMap Id Group

/-- `Iterator::max_by` on the access level: the last of the largest — group.rs:398. -/
def maxByCan : List Dlg → Option Dlg
  | [] => none
  | d :: ds => some (ds.foldl (fun best x => if x.can < best.can then best else x) d)

namespace Group

/-- `Group::rebuild` — group.rs:749-878. `Reversed::pop` takes from the end (keyhive_core/src/reversed.rs). -/
def rebuild (H : Op → Nat) (g : Group) : Group :=
  let v := View.replay g.id (reverseTopsort H (AMap.values g.dlgHeads) (AMap.values g.revHeads)).reverse
  { g with members := v.members, active := v.active }

/-- `Group::get_capability` — group.rs:391-400. -/
def getCapability (g : Group) (member : Id) : Option Dlg :=
  (AMap.get g.members member).bind maxByCan

/-- `Group::revoked_members` — group.rs:355-379. -/
def revokedMembers (g : Group) : AMap Id (Agent × Access) :=
  (AMap.values g.active).foldl (fun acc r =>
    let d := r.revoke
    if AMap.contains g.members d.delegate.id then acc
    else match AMap.get acc d.delegate.id with
      | some (a, existing) =>
        if existing < d.can then AMap.insert acc d.delegate.id (a, d.can) else acc
      | none => AMap.insert acc d.delegate.id (d.delegate, d.can)) []

/-- `GroupState::new` and `Group::new` — state.rs:48-89, group.rs:92-110: the group's id is the issuer of the head. -/
def new (H : Op → Nat) (head : Dlg) : Group :=
  rebuild H ⟨head.issuer, [], [], (CaMap.insert (H ∘ Op.dlg) [] head).1, []⟩

/-- The root delegation for one parent — group.rs:177-203. `S` signs (`none`: signing failed). -/
def genHead (H : Op → Nat) (S : Op → Option Nat) (id : Id) (content : Content) (acc : CaMap Nat Dlg) (a : Agent) :
    Except Err (CaMap Nat Dlg) :=
  match S (.dlg (.mk id 0 a .admin none [] content)) with
  | none => .error .signing
  | some s => .ok (CaMap.insert (H ∘ Op.dlg) acc (.mk id s a .admin none [] content)).1

/-- `Group::generate_after_content` — group.rs:158-222: one root delegation with admin access per parent. -/
def generate (H : Op → Nat) (S : Op → Option Nat) (id : Id) (parents : List Agent) (content : Content) :
    Except Err Group := do
  let heads ← parents.foldlM (genHead H S id content) []
  return rebuild H ⟨id, [], [], heads, []⟩

end Group

/-- State of the loop of `transitive_members` — group.rs:283-300. -/
structure Trans where
  explore : List (Agent × Access × Access)   -- agent, agent_access, parent_access; the top is the head
  seen : List (Nat × Access)
  caps : AMap Id (Agent × Access)

namespace Trans

/-- Body of `'inner: for sub_dlg in dlgs.iter()` — group.rs:334-344. -/
def sub (can best : Access) (t : Trans) (d : Dlg) : Trans :=
  if (d.sig, can) ∈ t.seen then t
  else { t with seen := (d.sig, can) :: t.seen, explore := (d.delegate, d.can, best) :: t.explore }

/-- Body of `for (mem_id, dlgs) in membered.members()` — group.rs:326-345. -/
def member (best : Access) (t : Trans) (m : Id × List Dlg) : Trans :=
  match maxByCan m.2 with
  | none => t   -- unreachable: the lists are non-empty
  | some cap =>
    m.2.foldl (sub cap.can best) { t with caps := AMap.insert t.caps m.1 (cap.delegate, best) }

/-- `best_access` — group.rs:314-320. -/
def best (t : Trans) (agent : Agent) (access : Access) : Access :=
  match AMap.get t.caps agent.id with
  | some (_, existing) => Access.max existing access
  | none => access

/-- One turn of the loop — group.rs:302-347. `held`: ids of groups locked by the caller. -/
def turn (W : World) (held : List Id) (self : Id) (t : Trans) (agent : Agent) (access parent : Access) :
    Except Err Trans :=
  if agent.id = self then .ok t
  else
    let best := t.best agent access
    let t := { t with caps := AMap.insert t.caps agent.id (agent, Access.min access parent) }
    if agent.isMembered then
      if agent.id ∈ held then .error .deadlock
      else match AMap.get W agent.id with
        | none => .ok t
        | some g => .ok (g.members.foldl (member best) t)
    else .ok t

/-- The loop — group.rs:302-347. -/
def run (W : World) (held : List Id) (self : Id) : Nat → Trans → Except Err Trans
  | 0, t => .ok t
  | n + 1, t =>
    match t.explore with
    | [] => .ok t
    | (agent, access, parent) :: rest => do
      let t ← turn W held self { t with explore := rest } agent access parent
      run W held self n t

/-- One entry of the initial stack — group.rs:286-298. -/
def startStep (t : Trans) (m : Id × List Dlg) : Trans :=
  match maxByCan m.2 with
  | none => t
  | some cap => { t with seen := (cap.sig, .admin) :: t.seen, explore := (cap.delegate, cap.can, .admin) :: t.explore }

/-- The initial stack — group.rs:286-298. -/
def start (g : Group) : Trans :=
  g.members.foldl startStep ⟨[], [], []⟩

end Trans

/-- Number of delegations in the members of all groups. -/
def World.size (W : World) : Nat := (W.map (fun p => (p.2.members.map (fun m => m.2.length)).sum)).sum

/-- `Group::transitive_members` — group.rs:271-350. Every turn after the first ones is for a delegation not seen before,
which bounds the turns. -/
def transitiveMembers (W : World) (held : List Id) (g : Group) : Except Err (AMap Id (Agent × Access)) := do
  let t ← Trans.run W held g.id (g.members.length + W.size + 1) (Trans.start g)
  return t.caps

/-- `m.transitive_members()` for a delegate that is a group or document — membered.rs:101-106. `none` for other agents. The
group is locked for the duration of the call. -/
def membersOf (W : World) (held : List Id) (a : Agent) : Except Err (Option (AMap Id (Agent × Access))) :=
  if !a.isMembered then .ok none
  else if a.id ∈ held then .error .deadlock
  else match AMap.get W a.id with
    | none => .ok none
    | some g => do return some (← transitiveMembers W (a.id :: held) g)

/-- What group code asks about a nested group: `membersOf` of the world around it. -/
abbrev Nested := Agent → Except Err (Option (AMap Id (Agent × Access)))

/-- `is_transitive_member_of` — state.rs:312-330. -/
def isTransitiveMemberOf (N : Nested) (delegate : Agent) (member : Id) (min : Access) : Except Err Bool := do
  match ← N delegate with
  | none => return false
  | some tm =>
    match AMap.get tm member with
    | none => return false
    | some (_, access) => return decide (min ≤ access)

/-- The loop over the proof chain — state.rs:159-184 (and 236-255): `can` is the access of the delegation at the start of
the chain. -/
def checkChain (N : Nested) (can : Access) : Dlg → List Dlg → Except Err Unit
  | _, [] => .ok ()
  | head, proof :: rest =>
    if proof.can < can then .error (.escalation can proof.can)
    else do
      if head.issuer ≠ proof.delegate.id then
        if !(← isTransitiveMemberOf N proof.delegate head.issuer can) then throw .invalidProofChain
      checkChain N can proof rest

namespace Group

/-- The loop over the current delegation heads — state.rs:186-194. -/
def headsAfter (H : Op → Nat) (g : Group) (d : Dlg) : CaMap Nat Dlg :=
  g.dlgHeads.foldl (fun heads p =>
    let heads := if d.isAncestorOf p.2 then heads else (CaMap.insert (H ∘ Op.dlg) heads d).1
    if p.2.isAncestorOf d then AMap.erase heads p.1 else heads) g.dlgHeads

/-- The loop over the current revocation heads — state.rs:196-200. -/
def revHeadsAfter (g : Group) (d : Dlg) : CaMap Nat Rev :=
  g.revHeads.foldl (fun heads p => if d.after.any (·.same p.2) then AMap.erase heads p.1 else heads) g.revHeads

/-- `GroupState::add_delegation` — state.rs:142-204. -/
def addDelegation (H : Op → Nat) (N : Nested) (g : Group) (d : Dlg) : Except Err Group := do
  if d.subject ≠ g.id then throw .invalidSubject
  if d.proof.isNone ∧ d.issuer ≠ g.id then throw .invalidProofChain
  checkChain N d.can d d.lineage
  return { g with dlgHeads := g.headsAfter H d, revHeads := g.revHeadsAfter d }

/-- `GroupState::add_revocation` — state.rs:207-264. -/
def addRevocation (H : Op → Nat) (N : Nested) (g : Group) (r : Rev) : Except Err Group := do
  if r.subject ≠ g.id then throw .invalidSubject
  match r.proof with
  | some p =>
    if !r.revoke.same p && !r.revoke.isDescendantOf p then
      if !(← isTransitiveMemberOf N p.delegate r.issuer r.revoke.can) then throw .invalidProofChain
    checkChain N p.can p p.lineage
  | none =>
    if r.issuer ≠ g.id then throw .invalidProofChain
  return { g with revHeads := (CaMap.insert (H ∘ Op.rev) g.revHeads r).1 }

/-- `Group::receive_delegation` — group.rs:418-426. -/
def receiveDelegation (H : Op → Nat) (N : Nested) (g : Group) (d : Dlg) : Except Err Group := do
  return (← g.addDelegation H N d).rebuild H

/-- `Group::receive_revocation` — group.rs:430-438. -/
def receiveRevocation (H : Op → Nat) (N : Nested) (g : Group) (r : Rev) : Except Err Group := do
  return (← g.addRevocation H N r).rebuild H

/-- Search for a direct member through which the signer has enough access — group.rs:496-513. Returns the proof, or the
best access found. -/
def findProof (N : Nested) (g : Group) (signer : Id) (can : Access) :
    List Id → Option Access → Except Err (Option Dlg × Option Access)
  | [], best => .ok (none, best)
  | m :: ms, best =>
    match g.getCapability m with
    | none => findProof N g signer can ms best   -- unreachable
    | some dlg => do
      match ← N dlg.delegate with
      | none => findProof N g signer can ms best
      | some tm =>
        match AMap.get tm signer with
        | none => findProof N g signer can ms best
        | some (_, access) =>
          if can ≤ access then return (some dlg, best)
          else
            let best' := match best with
              | none => access
              | some b => if b < access then access else b
            findProof N g signer can ms (some best')

/-- The proof used by `add_member` — group.rs:477-525. -/
def proofFor (N : Nested) (g : Group) (signer : Id) (can : Access) : Except Err (Option Dlg) :=
  if g.id = signer then .ok none
  else match g.getCapability signer with
    | some p => if p.can < can then .error (.accessEscalation can p.can) else .ok (some p)
    | none => do
      match ← findProof N g signer can (AMap.keys g.members) none with
      | (some p, _) => return some p
      | (none, some a) => throw (.accessEscalation can a)
      | (none, none) => throw .noProof

/-- `Group::add_member_with_manual_content` (and `add_member`) — group.rs:445-547. Signatures are deterministic: `S` maps
the operation with signature field 0 to its signature. -/
def addMember (H : Op → Nat) (N : Nested) (S : Op → Option Nat) (g : Group) (who : Agent) (can : Access) (signer : Id)
    (content : Content) : Except Err (Group × Dlg) := do
  let proof ← g.proofFor N signer can
  let unsigned := Dlg.mk signer 0 who can proof (AMap.values g.revHeads) content
  match S (.dlg unsigned) with
  | none => throw .signing
  | some s =>
    let d := Dlg.mk signer s who can proof (AMap.values g.revHeads) content
    return (← g.receiveDelegation H N d, d)

/-- `build_revocation` followed by `receive_revocation` — group.rs:728-746, e.g. 582-586. -/
def issueRevocation (H : Op → Nat) (N : Nested) (S : Op → Option Nat) (g : Group) (signer : Id) (revoke : Dlg)
    (proof : Option Dlg) (content : Content) : Except Err (Group × Rev) := do
  match S (.rev (.mk signer 0 revoke proof content)) with
  | none => throw .signing
  | some s =>
    let r := Rev.mk signer s revoke proof content
    return (← g.receiveRevocation H N r, r)

end Group

/-- A call that may change the group and then fail: the group afterwards, and the result. -/
abbrev Step (α : Type) := Group × Except Err α

namespace Group

/-- Issue revocations of one delegation with each of the given proofs, stopping at the first failure. -/
def issueAll (H : Op → Nat) (N : Nested) (S : Op → Option Nat) (signer : Id) (revoke : Dlg) (content : Content) :
    Group → List (Option Dlg) → List Rev → Step (List Rev)
  | g, [], done => (g, .ok done)
  | g, p :: ps, done =>
    match g.issueRevocation H N S signer revoke p content with
    | .error e => (g, .error e)
    | .ok (g, r) => issueAll H N S signer revoke content g ps (done ++ [r])

/-- The proofs of "your own" authority used by a signer other than the group key — group.rs:590-651. The first list is the
"double up" loop, whose test compares the delegate of the signer's own delegation with the member to remove. -/
def ownProofs (g : Group) (member signer : Id) (toRevoke : Dlg) : List (Option Dlg) :=
  (((AMap.get g.members signer).getD []).filter (fun d => decide (d.delegate.id = member) && decide (d.can = .admin))).map some ++
    if toRevoke.issuer = signer then [some toRevoke]
    else (toRevoke.lineage.find? (fun a => decide (a.issuer = signer))).toList.map some

/-- The search for a transitive proof — group.rs:653-681. -/
def nestedProof (N : Nested) (g : Group) (signer : Id) (min : Access) : List Id → Except Err (Option Dlg)
  | [] => .ok none
  | m :: ms =>
    match g.getCapability m with
    | none => nestedProof N g signer min ms
    | some dlg => do
      match ← N dlg.delegate with
      | none => nestedProof N g signer min ms
      | some tm =>
        match AMap.get tm signer with
        | none => nestedProof N g signer min ms
        | some (_, access) => if min ≤ access then return some dlg else nestedProof N g signer min ms

/-- One turn of the loop over the delegations of the member — group.rs:589-686. -/
def revokeOne (H : Op → Nat) (N : Nested) (S : Op → Option Nat) (member signer : Id) (content : Content) (g : Group)
    (toRevoke : Dlg) (done : List Rev) : Step (List Rev) :=
  match g.ownProofs member signer toRevoke with
  | [] =>
    match g.nestedProof N signer toRevoke.can (AMap.keys g.members) with
    | .error e => (g, .error e)
    | .ok none => (g, .error .noProof)
    | .ok (some p) => issueAll H N S signer toRevoke content g [some p] done
  | proofs => issueAll H N S signer toRevoke content g proofs done

/-- The loop over the delegations of the member — group.rs:578-687. -/
def revokeEach (H : Op → Nat) (N : Nested) (S : Op → Option Nat) (member signer : Id) (content : Content) :
    Group → List Dlg → List Rev → Step (List Rev)
  | g, [], done => (g, .ok done)
  | g, d :: ds, done =>
    let step :=
      if signer = g.id then issueAll H N S signer d content g [none] done
      else revokeOne H N S member signer content g d done
    match step with
    | (g, .error e) => (g, .error e)
    | (g, .ok done) => revokeEach H N S member signer content g ds done

/-- The loop that grants again what the removed member had granted — group.rs:695-719. -/
def redelegate (H : Op → Nat) (N : Nested) (S : Op → Option Nat) (member signer : Id) (content : Content) :
    Group → List Dlg → List Dlg → Step (List Dlg)
  | g, [], done => (g, .ok done)
  | g, d :: ds, done =>
    if d.delegate.id = member then redelegate H N S member signer content g ds done
    else match d.proof with
      | none => redelegate H N S member signer content g ds done
      | some p =>
        if p.delegate.id = member then
          match g.addMember H N S d.delegate d.can signer content with
          | .error e => (g, .error e)
          | .ok (g, d') => redelegate H N S member signer content g ds (done ++ [d'])
        else redelegate H N S member signer content g ds done

/-- `Group::revoke_member` — group.rs:556-726. -/
def revokeMember (H : Op → Nat) (N : Nested) (S : Op → Option Nat) (g : Group) (member : Id) (retain : Bool) (signer : Id)
    (content : Content) : Step (List Rev × List Dlg) :=
  match AMap.get g.members member with
  | none => (g, .ok ([], []))
  | some toRevoke =>
    let og := (AMap.values g.members).flatten
    match g.revokeEach H N S member signer content toRevoke [] with
    | (g, .error e) => (g, .error e)
    | (g, .ok revs) =>
      if retain then
        match g.redelegate H N S member signer content og [] with
        | (g, .error e) => (g, .error e)
        | (g, .ok dlgs) => (g, .ok (revs, dlgs))
      else (g, .ok (revs, []))

end Group

/-- `Agent::individual_ids` — agent.rs:84-120. `none`: the walk would lock a group locked by the caller. -/
def individualIds (W : World) (held : List Id) : Nat → List Agent → List Id → List Id → Except Err (List Id)
  | 0, _, _, ids => .ok ids
  | _ + 1, [], _, ids => .ok ids
  | n + 1, a :: stack, seen, ids =>
    if a.id ∈ seen then individualIds W held n stack seen ids
    else
      let seen := a.id :: seen
      if a.isMembered then
        if a.id ∈ held then .error .deadlock
        else match AMap.get W a.id with
          | none => individualIds W held n stack seen ids
          | some g =>
            individualIds W held n (((AMap.values g.members).flatten.map Dlg.delegate).reverse ++ stack) seen ids
      else individualIds W held n stack seen (sinsert ids a.id)

/-- `Agent::individual_ids` called on one agent. -/
def Agent.individualIds (W : World) (held : List Id) (a : Agent) : Except Err (List Id) :=
  Group.individualIds W held (W.size + 2) [a] [] []

end Verif.Group
