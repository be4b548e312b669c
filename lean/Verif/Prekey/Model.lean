import Verif.Core.CaMap

/-!
# Model of prekeys

`keyhive_core/src/principal/individual.rs`, `individual/state.rs`, `individual/op.rs`, the prekey part of
`principal/active.rs`, `principal/public.rs`, and `receive_prekey_op`, `receive_contact_card`, `register_individual`,
`rotate_prekey`, `expand_prekeys` of `keyhive.rs`.

Share keys, identifiers and signatures are numbers. `H` is `Digest::hash` on `KeyOp`, `valid` is `Signed::try_verify`.
Listeners are not called.
-/

namespace Verif.Prekey

/-- `Identifier` / `IndividualId` — a verifying key. -/
abbrev Id := Nat

/-- `ShareKey`. -/
abbrev Key := Nat

/-- `AddKeyOp` (op/add_key.rs:7-12) and `RotateKeyOp` (op/rotate_key.rs:6-14). -/
inductive Body where
  | add (k : Key)
  | rotate (old new : Key)
deriving DecidableEq, Repr

/-- `KeyOp`: a signed body — op.rs:26-34, signed.rs. -/
structure KeyOp where
  issuer : Id
  sig : Nat
  body : Body
deriving DecidableEq, Repr

/-- `KeyOp::new_key` — op.rs:70-75. -/
def KeyOp.newKey (o : KeyOp) : Key :=
  match o.body with
  | .add k => k
  | .rotate _ new => new

/-- The key retired by the operation, if any. -/
def KeyOp.oldKey (o : KeyOp) : Option Key :=
  match o.body with
  | .add _ => none
  | .rotate old _ => some old

/-- Errors: `ReceivePrekeyOpError` (individual.rs:182-189) and `SigningError`. -/
inductive Err where
  | incorrectSigner
  | verification
  | signing
deriving DecidableEq, Repr

/-- `PrekeyState` — state.rs:24-31. -/
abbrev State := CaMap Nat KeyOp

namespace State

/-- `PrekeyState::new` — state.rs:35-39. -/
def new (H : KeyOp → Nat) (op : KeyOp) : State := (CaMap.insert H CaMap.new op).1

/-- `PrekeyState::insert_op` — state.rs:113-117. -/
def insertOp (H : KeyOp → Nat) (valid : KeyOp → Bool) (s : State) (op : KeyOp) : Except Err State :=
  if valid op then .ok (CaMap.insert H s op).1 else .error .verification

/-- `PrekeyState::extend` — state.rs:50-58. -/
def extend (H : KeyOp → Nat) (valid : KeyOp → Bool) (s : State) : List KeyOp → Except Err State
  | [] => .ok s
  | op :: ops => do extend H valid (← s.insertOp H valid op) ops

/-- Loop body of `build` — state.rs:129-139. -/
def buildStep (acc : List Key × List Key) (op : KeyOp) : List Key × List Key :=
  match op.body with
  | .add k => (sinsert acc.1 k, acc.2)
  | .rotate old new => (sinsert acc.1 new, acc.2 ++ [old])

/-- `PrekeyState::build` — state.rs:125-146. -/
def build (s : State) : List Key :=
  let acc := (AMap.values s).foldl buildStep ([], [])
  acc.2.foldl sremove acc.1

end State

/-- `Individual` — individual.rs:40-65. -/
structure Indie where
  id : Id
  prekeys : List Key
  state : State
deriving DecidableEq, Repr

namespace Indie

/-- `Individual::new` — individual.rs:67-77. The signature of the operation is not checked. -/
def new (H : KeyOp → Nat) (op : KeyOp) : Indie :=
  let s := State.new H op
  { id := op.issuer, prekeys := s.build, state := s }

/-- `Individual::receive_prekey_op` — individual.rs:107-116. -/
def receive (H : KeyOp → Nat) (valid : KeyOp → Bool) (i : Indie) (op : KeyOp) : Except Err Indie :=
  if op.issuer ≠ i.id then .error .incorrectSigner
  else do
    let s ← i.state.insertOp H valid op
    pure { i with state := s, prekeys := s.build }

/-- `Merge for Individual` — individual.rs:175-180, `Merge for PrekeyState` — state.rs:157-161. -/
def merge (i fork : Indie) : Indie :=
  let s : State := CaMap.merge i.state fork.state
  { i with state := s, prekeys := s.build }

/-- The update of the individual in `Active::rotate_prekey` — active.rs:206-215. The freshly signed operation is valid. -/
def rotate (H : KeyOp → Nat) (i : Indie) (op : KeyOp) (old new : Key) : Indie :=
  { i with state := (CaMap.insert H i.state op).1, prekeys := sinsert (sremove i.prekeys old) new }

/-- The update of the individual in `Active::expand_prekeys` — active.rs:243-252. -/
def expand (H : KeyOp → Nat) (i : Indie) (op : KeyOp) (new : Key) : Indie :=
  { i with state := (CaMap.insert H i.state op).1, prekeys := sinsert i.prekeys new }

end Indie

/-- `ShareSecretKey`, with `share_key` the identity on numbers. -/
abbrev Secret := Nat

/-- `Active`: the signer is the parameter `S` of its methods — active.rs:49-71. -/
structure Active where
  indie : Indie
  pairs : AMap Key Secret
deriving DecidableEq, Repr

namespace Active

/-- Sign one `AddKeyOp` per key — active.rs:103-119. -/
def signAdds (S : Body → Option KeyOp) : List Key → Except Err (List KeyOp)
  | [] => .ok []
  | k :: ks =>
    match S (.add k) with
    | none => .error .signing
    | some op => do pure (op :: (← signAdds S ks))

/-- `Active::generate` — active.rs:82-141: `sks` are the seven generated secrets, the first of which is `init_sk`.
`pk` is `ShareSecretKey::share_key`. The `expect` after `extend` is the error `verification`. -/
def generate (H : KeyOp → Nat) (valid : KeyOp → Bool) (pk : Secret → Key) (S : Body → Option KeyOp) (me : Id)
    (init : Secret) (others : List Secret) : Except Err Active :=
  match S (.add (pk init)) with
  | none => .error .signing
  | some op => do
    let pairs := others.foldl (fun m sk => AMap.insert m (pk sk) sk) (AMap.insert [] (pk init) init)
    let ops ← signAdds S (AMap.keys pairs)
    let s ← (State.new H op).extend H valid ops
    pure { indie := { id := me, prekeys := s.build, state := s }, pairs }

/-- `Active::rotate_prekey` — active.rs:178-219. -/
def rotatePrekey (H : KeyOp → Nat) (pk : Secret → Key) (S : Body → Option KeyOp) (a : Active) (old : Key) (sk : Secret) :
    Except Err (Active × KeyOp) :=
  match S (.rotate old (pk sk)) with
  | none => .error .signing
  | some op => .ok ({ indie := a.indie.rotate H op old (pk sk), pairs := AMap.insert a.pairs (pk sk) sk }, op)

/-- `Active::expand_prekeys` — active.rs:222-263. -/
def expandPrekeys (H : KeyOp → Nat) (pk : Secret → Key) (S : Body → Option KeyOp) (a : Active) (sk : Secret) :
    Except Err (Active × KeyOp) :=
  match S (.add (pk sk)) with
  | none => .error .signing
  | some op => .ok ({ indie := a.indie.expand H op (pk sk), pairs := AMap.insert a.pairs (pk sk) sk }, op)

/-- `Active::import_prekey_secrets` — active.rs:304-309, on the decoded map. -/
def importSecrets (a : Active) (m : AMap Key Secret) : Active :=
  { a with pairs := m.foldl (fun acc p => AMap.insert acc p.1 p.2) a.pairs }

end Active

/-! ## Sorting operations for sync -/

/-- `rotate_key_ops.get(key)` after the first loop of `topsort` — op.rs:38-54. -/
def rotationsOf (ops : List KeyOp) (k : Key) : List KeyOp := ops.filter (fun o => decide (o.oldKey = some k))

/-- The second loop of `topsort` — op.rs:58-66. The stack's top is the head of the list; the first argument bounds the turns
(`none`: still running). -/
def topsortLoop (ops : List KeyOp) : Nat → List KeyOp → List KeyOp → Option (List KeyOp)
  | _, [], out => some out
  | 0, _ :: _, _ => none
  | n + 1, h :: stack, out => topsortLoop ops n ((rotationsOf ops h.newKey).reverse ++ stack) (out ++ [h])

/-- `KeyOp::topsort` — op.rs:37-69, run for at most `n` turns. -/
def topsort (n : Nat) (s : State) : Option (List KeyOp) :=
  let ops := AMap.values s
  topsortLoop ops n (ops.filter (fun o => o.oldKey.isNone)).reverse []

/-! ## Choosing a prekey -/

/-- `u64::swap_bytes`. -/
def swapBytes (n : Nat) : Nat :=
  (n % 256) * 256 ^ 7 + (n / 256 % 256) * 256 ^ 6 + (n / 256 ^ 2 % 256) * 256 ^ 5 + (n / 256 ^ 3 % 256) * 256 ^ 4
    + (n / 256 ^ 4 % 256) * 256 ^ 3 + (n / 256 ^ 5 % 256) * 256 ^ 2 + (n / 256 ^ 6 % 256) * 256 + n / 256 ^ 7 % 256

/-- `clamp` — individual.rs:191-197, on a 64-bit little-endian machine, where `usize::from_be` swaps bytes. The argument is
`u64::from_be_bytes(bytes)`. -/
def clamp (v : Nat) (shift : Nat) : Nat :=
  swapBytes (if shift < 64 then (v <<< shift) % 2 ^ 64 else 0)

/-- The loop of `pseudorandom_in_range` — individual.rs:219-227. `stream i` is the `i`-th group of 8 bytes of the hash output,
read as a big-endian number; `none`: still running after the given number of turns. -/
def sampleLoop (stream : Nat → Nat) (shift max : Nat) : Nat → Nat → Option Nat
  | 0, _ => none
  | n + 1, i =>
    if clamp (stream i) shift ≤ max then some (clamp (stream i) shift) else sampleLoop stream shift max n (i + 1)

/-- `pseudorandom_in_range` — individual.rs:199-231. (`Nat.log2 0 = 0`, as `checked_ilog2().unwrap_or(0)`.) -/
def pseudorandomInRange (stream : Nat → Nat) (max : Nat) (turns : Nat) : Option Nat :=
  sampleLoop stream (64 - Nat.log2 max) max turns 0

/-- Outcome of `pick_prekey`. -/
inductive Pick where
  | key (k : Key)
  | panic
  | running
deriving DecidableEq, Repr

/-- `Individual::pick_prekey` — individual.rs:118-128. `xof` maps the seed (here the pair of ids) to the hash output; the order
of the list `prekeys` stands for the iteration order of the `HashSet`. -/
def Indie.pickPrekey (xof : Id → Id → Nat → Nat) (i : Indie) (doc : Id) (turns : Nat) : Pick :=
  match pseudorandomInRange (xof i.id doc) i.prekeys.length turns with
  | none => .running
  | some idx =>
    match i.prekeys[idx]? with
    | none => .panic
    | some k => .key k

/-! ## The registry of known agents -/

/-- The part of `Keyhive` that prekey events touch — keyhive.rs:88-133. `indies` includes the individual of the active agent,
which is shared with `Active` (keyhive.rs:186-192); `membered` has the groups and documents, with their
`IdOrIndividual` (`none`: only the id). -/
structure Registry where
  me : Id
  pub : Id
  indies : AMap Id Indie
  membered : AMap Id (Option Indie)
deriving DecidableEq, Repr

namespace Registry

/-- `register_individual` — keyhive.rs:418-432. -/
def registerIndividual (r : Registry) (i : Indie) : Registry :=
  if AMap.contains r.indies i.id then r else { r with indies := AMap.insert r.indies i.id i }

/-- The end of `receive_prekey_op` for an individual (or the active agent). -/
def receiveIndie (H : KeyOp → Nat) (valid : KeyOp → Bool) (r : Registry) (i : Indie) (op : KeyOp) :
    Registry × Except Err Unit :=
  match i.receive H valid op with
  | .error e => (r, .error e)
  | .ok i' => ({ r with indies := AMap.insert r.indies i.id i' }, .ok ())

/-- The end of `receive_prekey_op` for a group or document — keyhive.rs:1566-1582. -/
def receiveMembered (H : KeyOp → Nat) (valid : KeyOp → Bool) (r : Registry) (known : Option Indie) (op : KeyOp) :
    Registry × Except Err Unit :=
  match known with
  | none => ({ r with membered := AMap.insert r.membered op.issuer (some (Indie.new H op)) }, .ok ())
  | some i =>
    match i.receive H valid op with
    | .error e => (r, .error e)
    | .ok i' => ({ r with membered := AMap.insert r.membered op.issuer (some i') }, .ok ())

/-- `receive_prekey_op` — keyhive.rs:1537-1586, with `get_agent` (1394-1429). -/
def receivePrekeyOp (H : KeyOp → Nat) (valid : KeyOp → Bool) (r : Registry) (op : KeyOp) : Registry × Except Err Unit :=
  if op.issuer = r.pub then (r, .ok ())
  else
    match (if op.issuer = r.me then none else AMap.get r.membered op.issuer) with
    | some known => r.receiveMembered H valid known op
    | none =>
      match AMap.get r.indies op.issuer with
      | some i => r.receiveIndie H valid i op
      | none => (r.registerIndividual (Indie.new H op)).receiveIndie H valid (Indie.new H op) op

/-- `receive_contact_card` — keyhive.rs:327-356, with `get_individual` (1348-1352). -/
def receiveContactCard (H : KeyOp → Nat) (valid : KeyOp → Bool) (r : Registry) (card : KeyOp) : Registry × Except Err Unit :=
  match AMap.get r.indies card.issuer with
  | some i => r.receiveIndie H valid i card
  | none => (r.registerIndividual (Indie.new H card), .ok ())

end Registry

end Verif.Prekey
