import Verif.Group.Model
import Mathlib.Logic.Relation

/-!
# Specification vocabulary for groups

Small definitions used in the statements of the properties, independent of how the model computes things.
-/

namespace Verif.Group

open Relation

/-- `a` directly depends on `b`: `b` is `a`'s proof, a revocation `a` names, or the delegation it revokes. -/
def Dep (a b : Op) : Prop := b ∈ a.after

/-- `op` is one of `heads` or in the past of one of them. -/
def Below (heads : List Op) (op : Op) : Prop := ∃ h ∈ heads, ReflTransGen Dep h op

namespace Group

/-- The current heads of a group. -/
def heads (g : Group) : List Op := (AMap.values g.dlgHeads).map Op.dlg ++ (AMap.values g.revHeads).map Op.rev

/-- The operations a group holds: its heads and everything in their past. -/
def Holds (g : Group) (op : Op) : Prop := Below g.heads op

/-- The operations in the order in which the membership view replays them. -/
def history (H : Op → Nat) (g : Group) : List Op :=
  (reverseTopsort H (AMap.values g.dlgHeads) (AMap.values g.revHeads)).reverse

end Group

/-- Different operations in the past of these heads have different digests. -/
def NoClash (H : Op → Nat) (heads : List Op) : Prop :=
  ∀ a b, Below heads a → Below heads b → H a = H b → a = b

/-- What must be replayed before `a`, among the operations below `heads`: its dependencies, and for a delegation any
revocation of its proof. -/
inductive Needs (heads : List Op) : Op → Op → Prop
  | dep {a b} : Below heads a → Dep a b → Needs heads a b
  | revoked {d p : Dlg} {r : Rev} : Below heads (.dlg d) → Below heads (.rev r) → d.proof = some p →
      r.revoke.sig = p.sig → Needs heads (.dlg d) (.rev r)

/-- Every revocation is issued with direct authority: by the group key (no proof), or with the revoked delegation or one
above it in its proof chain as proof. -/
def Direct (heads : List Op) : Prop :=
  ∀ r, Below heads (.rev r) → ∀ p, r.proof = some p → p = r.revoke ∨ p ∈ r.revoke.lineage

/-- No operation has to be replayed before itself. -/
def Acyclic (heads : List Op) : Prop := ∀ o, ¬ TransGen (Needs heads) o o

/-- No delegation is revoked by two different revocations. -/
def Sole (heads : List Op) : Prop :=
  ∀ r r', Below heads (.rev r) → Below heads (.rev r') → r.revoke.sig = r'.revoke.sig → r = r'

/-- Why a delegation may be in the membership view: it is a root issued by the group key; or its proof is justified; or its
proof was issued by the group key; or the issuer of its proof has a justified delegation with at least the access of the
proof. -/
inductive Justified (gid : Id) (Held : Op → Prop) : Dlg → Prop
  | root {d} : Held (.dlg d) → d.proof = none → d.issuer = gid → Justified gid Held d
  | chain {d p} : Held (.dlg d) → d.proof = some p → Justified gid Held p → Justified gid Held d
  | group {d p} : Held (.dlg d) → d.proof = some p → p.issuer = gid → Justified gid Held d
  | alt {d p a} : Held (.dlg d) → d.proof = some p → Justified gid Held a → a.delegate.id = p.issuer → p.can ≤ a.can →
      Justified gid Held d

namespace Group

/-- The delegation is one of those that make `m` a member. -/
def MemberBy (g : Group) (m : Id) (d : Dlg) : Prop := ∃ ds, AMap.get g.members m = some ds ∧ d ∈ ds

/-- The revocation is in effect. -/
def InEffect (g : Group) (r : Rev) : Prop := AMap.get g.active r.sig = some r

end Group

/-- Two delegations say the same: delegate, access, proof, revocations seen (each by signer and signature) and content seen
agree. -/
def EqualPayload (a b : Dlg) : Prop :=
  a.delegate = b.delegate ∧ a.can = b.can ∧
  a.proof.map (fun p => (p.issuer, p.sig)) = b.proof.map (fun p => (p.issuer, p.sig)) ∧
  a.after.map (fun r => (r.issuer, r.sig)) = b.after.map (fun r => (r.issuer, r.sig)) ∧ a.content = b.content

/-- No two delegations below these heads say the same and have different signers. -/
def PayloadUnique (heads : List Op) : Prop :=
  ∀ a b, Below heads (.dlg a) → Below heads (.dlg b) → EqualPayload a b → a = b

/-- The group accepted the operation `o`, going from `g` to `g'`. -/
inductive Accepts (H : Op → Nat) : Group → Op → Group → Prop
  | dlg {g g' d} (N : Nested) : g.receiveDelegation H N d = .ok g' → Accepts H g (.dlg d) g'
  | rev {g g' r} (N : Nested) : g.receiveRevocation H N r = .ok g' → Accepts H g (.rev r) g'

/-- The group accepted the operations of a list one after the other. -/
inductive Run (H : Op → Nat) : Group → List Op → Group → Prop
  | nil {g} : Run H g [] g
  | snoc {g l g' o g''} : Run H g l g' → Accepts H g' o g'' → Run H g (l ++ [o]) g''

/-- States of a group that started from root delegations by its own key and then accepted any operations. -/
inductive Reach (H : Op → Nat) : Group → Prop
  | new {d : Dlg} : d.proof = none → Reach H (Group.new H d)
  | generate {S id parents content g} : parents ≠ [] → Group.generate H S id parents content = .ok g → Reach H g
  | accept {g o g'} : Reach H g → Accepts H g o g' → Reach H g'
  | add {N S g who can signer content g' d} : Reach H g → g.addMember H N S who can signer content = .ok (g', d) → Reach H g'
  | revoke {N S g member retain signer content} :
      Reach H g → Reach H (g.revokeMember H N S member retain signer content).1

/-- `a` is reached from the group by a path of memberships through other groups and documents; `links` are the access levels
granted along it, the last one first. -/
inductive Path (W : World) (g : Group) : Agent → List Access → Prop
  | direct {m d} : g.MemberBy m d → Path W g d.delegate [d.can]
  | nested {a links h m d} : Path W g a links → a.id ≠ g.id → a.isMembered = true → AMap.get W a.id = some h →
      h.MemberBy m d → Path W g d.delegate (d.can :: links)

/-- Members are listed under the id of the delegate, with at least one delegation. -/
def Group.Tidy (g : Group) : Prop :=
  AMap.WF g.members ∧ (∀ m ds, AMap.get g.members m = some ds → ds ≠ []) ∧ ∀ m d, g.MemberBy m d → d.delegate.id = m

/-- A delegation that makes someone a member of the group or of some group of the world. -/
def Around (W : World) (g : Group) (d : Dlg) : Prop :=
  (∃ m, g.MemberBy m d) ∨ ∃ i h m, AMap.get W i = some h ∧ h.MemberBy m d

/-- The member lists of the group and of the world around it: tidy, delegations identified by their signature, and the
same kind of agent behind the same id. -/
structure Sound (W : World) (g : Group) : Prop where
  wf : AMap.WF W
  self : g.Tidy
  world : ∀ i h, AMap.get W i = some h → h.Tidy
  sig : ∀ d d', Around W g d → Around W g d' → d.sig = d'.sig → d = d'
  kind : ∀ d d', Around W g d → Around W g d' → d.delegate.id = d'.delegate.id → d.delegate = d'.delegate

/-- Groups nested in the group have no known groups among their own members (other than the group itself). -/
def Flat (W : World) (g : Group) : Prop :=
  ∀ m d h m' d', g.MemberBy m d → d.delegate.id ≠ g.id → AMap.get W d.delegate.id = some h → h.MemberBy m' d' →
    d'.delegate.isMembered = true → d'.delegate.id ≠ g.id → AMap.get W d'.delegate.id = none

/-- The delegations in the member list of a group are about that group. -/
def OwnMembers (W : World) (g : Group) : Prop :=
  (∀ m d, g.MemberBy m d → d.subject = g.id) ∧ ∀ i h m d, AMap.get W i = some h → h.MemberBy m d → d.subject = i

/-- `b` is reached from the agent `a` by following members of groups and documents. -/
inductive Walk (W : World) (a : Agent) : Agent → Prop
  | refl : Walk W a a
  | step {b h m d} : Walk W a b → b.isMembered = true → AMap.get W b.id = some h → h.MemberBy m d → Walk W a d.delegate

/-- `i` is the agent `a`, or has at least access `c` in the group or document `a` according to the nested memberships seen. -/
def ActsFor (N : Nested) (c : Access) (a : Agent) (i : Id) : Prop :=
  i = a.id ∨ ∃ tm b x, N a = .ok (some tm) ∧ AMap.get tm i = some (b, x) ∧ c ≤ x

/-- A proof chain for access `c`: it ends in a delegation issued by the group key, every link grants at least `c`, and
every delegation is issued by someone acting for the delegate of the one before. -/
inductive Backed (N : Nested) (c : Access) (gid : Id) : Dlg → Prop
  | root {d} : d.proof = none → d.issuer = gid → Backed N c gid d
  | link {d p} : d.proof = some p → c ≤ p.can → ActsFor N c p.delegate d.issuer → Backed N c gid p → Backed N c gid d

/-- Like `Reach`, but every operation is accepted only once the operations it names are held by the same group, and the
nested memberships are those of a world of groups. -/
inductive Vetted (H : Op → Nat) : Group → Prop
  | new {d : Dlg} : d.proof = none → d.after = [] → Vetted H (Group.new H d)
  | generate {S id parents content g} : parents ≠ [] → Group.generate H S id parents content = .ok g → Vetted H g
  | dlg {g d g'} (W : World) (held : List Id) : Vetted H g → (∀ b, Dep (.dlg d) b → g.Holds b) →
      g.receiveDelegation H (membersOf W held) d = .ok g' → Vetted H g'
  | rev {g r g'} (W : World) (held : List Id) : Vetted H g → (∀ b, Dep (.rev r) b → g.Holds b) →
      g.receiveRevocation H (membersOf W held) r = .ok g' → Vetted H g'

/-- Why a revocation may be accepted: it is issued by the group key without proof; or its proof has a chain of its own and
is the revoked delegation, or one above it, or is a delegation for which the issuer acts with at least the revoked access. -/
def Grounds (N : Nested) (gid : Id) (r : Rev) : Prop :=
  (r.proof = none ∧ r.issuer = gid) ∨
  ∃ p, r.proof = some p ∧ (∃ root, Backed N p.can root p) ∧
    ((r.revoke.same p = true ∨ ∃ a ∈ r.revoke.lineage, a.same p = true) ∨
      ∃ tm b x, N p.delegate = .ok (some tm) ∧ AMap.get tm r.issuer = some (b, x) ∧ r.revoke.can ≤ x)

/-- The group after taking in further operations, all signed by `i`, each once the operations it names are held. -/
inductive OnlyBy (H : Op → Nat) (W : World) (held : List Id) (i : Id) (g : Group) : Group → Prop
  | refl : OnlyBy H W held i g g
  | dlg {g1 g2 : Group} {d : Dlg} : OnlyBy H W held i g g1 → d.issuer = i → (∀ b, Dep (.dlg d) b → g1.Holds b) →
      g1.receiveDelegation H (membersOf W held) d = .ok g2 → OnlyBy H W held i g g2
  | rev {g1 g2 : Group} {r : Rev} : OnlyBy H W held i g g1 → r.issuer = i → (∀ b, Dep (.rev r) b → g1.Holds b) →
      g1.receiveRevocation H (membersOf W held) r = .ok g2 → OnlyBy H W held i g g2

end Verif.Group
