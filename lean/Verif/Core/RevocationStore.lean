import Verif.Core.CaMap

/-!
# Model of `keyhive_core/src/store/revocation.rs`

`R` is `Signed<Revocation>`; `hash : R → D` is `Digest::hash`; `agent : R → A` is
`revocation.payload.revoke.payload.delegate().agent_id()`. `HashSet<Arc<Signed<Revocation>>>`
compares with `Signed`'s equality, which looks at issuer and signature only
(keyhive_crypto/src/signed.rs:68-82); `sig : R → G` is that (issuer, signature) pair.
-/

namespace Verif

/-- A `HashSet` whose elements are compared through `sig`: `insert` keeps the element already
there (std `HashSet::insert`). -/
def sigInsert {R G : Type} [DecidableEq G] (sig : R → G) (l : List R) (r : R) : List R :=
  if l.any (fun x => decide (sig x = sig r)) then l else r :: l

/-- `HashSet::remove` through `sig`. -/
def sigRemove {R G : Type} [DecidableEq G] (sig : R → G) (l : List R) (r : R) : List R :=
  l.filter (fun x => decide (sig x ≠ sig r))

/-- `RevocationStore` — store/revocation.rs:24-34. -/
structure RevocationStore (D A R : Type) where
  revocations : CaMap D R
  agentTo : AMap A (List R)

namespace RevocationStore
variable {D A R G : Type} [DecidableEq D] [DecidableEq A] [DecidableEq G]
  (hash : R → D) (agent : R → A) (sig : R → G)

/-- `RevocationStore::new` — store/revocation.rs:39-44. -/
def new : RevocationStore D A R := ⟨[], []⟩

/-- `RevocationStore::insert` — store/revocation.rs:75-86. -/
def insert (s : RevocationStore D A R) (r : R) : RevocationStore D A R :=
  let rs := (CaMap.insert hash s.revocations r).1
  let cur := (AMap.get s.agentTo (agent r)).getD []   -- `.entry(agent_id).or_default()`
  { revocations := rs, agentTo := AMap.insert s.agentTo (agent r) (sigInsert sig cur r) }

/-- `RevocationStore::remove_by_hash` — store/revocation.rs:90-106. -/
def removeByHash (s : RevocationStore D A R) (d : D) : RevocationStore D A R × Option R :=
  match CaMap.removeByHash s.revocations d with
  | (rs, none) => ({ s with revocations := rs }, none)
  | (rs, some r) =>
    match AMap.get s.agentTo (agent r) with
    | none => ({ s with revocations := rs }, some r)
    | some set =>
      let set' := sigRemove sig set r
      if set'.isEmpty then
        ({ revocations := rs, agentTo := AMap.erase s.agentTo (agent r) }, some r)
      else
        ({ revocations := rs, agentTo := AMap.insert s.agentTo (agent r) set' }, some r)

/-- `RevocationStore::get_revocations_for_agent` — store/revocation.rs:110-115. -/
def getForAgent (s : RevocationStore D A R) (a : A) : Option (List R) := AMap.get s.agentTo a

/-- Mutating calls on the store. -/
inductive Op (D R : Type) where
  | insert (r : R)
  | remove (d : D)

/-- One call. -/
def step (s : RevocationStore D A R) : Op D R → RevocationStore D A R
  | .insert r => insert hash agent sig s r
  | .remove d => (removeByHash agent sig s d).1

/-- `from_iter_direct` (store/revocation.rs:164-172) and any other sequence of calls. -/
def run (s : RevocationStore D A R) (l : List (Op D R)) : RevocationStore D A R :=
  l.foldl (step hash agent sig) s

end RevocationStore
end Verif
