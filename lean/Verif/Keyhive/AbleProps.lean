import Verif.Cgka.AbleLemmas
import Verif.Keyhive.PlaceProps
import Verif.Keyhive.WriterProps

/-!
# Members can write (C126)

The vocabulary is in `Verif.Keyhive.{Spec, PlaceSpec, FleetSpec}` and `Verif.Cgka.TogetherSpec`.
-/

namespace Verif.Keyhive

open Verif.Group Verif.Cgka Verif.BeeKem

variable {E : Env} {me : Id}

theorem encrypt_of {k : Keyhive} {did : Id} {d : Doc} {c : Cgka} (hd : AMap.get k.docs did = some d) (hc : d.cgka = some c) {L : Local}
    {r ps : Nat} (h : ∃ s o, (c.newAppSecretFor (E.hashCgka did) (L.signCgka did) L.gen 0 r ps).2 = .ok (s, o)) (x : Nat) :
    ∃ e o, (k.encryptContent E L did r ps x).2 = .ok (e, o) := by
  obtain ⟨s, o, h⟩ := h
  unfold Keyhive.encryptContent Doc.encryptContent
  simp only [hd, hc]
  cases hq : c.newAppSecretFor (E.hashCgka did) (L.signCgka did) L.gen 0 r ps with
  | mk c' y =>
    rw [hq] at h
    dsimp only at h
    subst h
    exact ⟨_, _, rfl⟩

theorem update_of' {k : Keyhive} {did : Id} {d : Doc} {c : Cgka} (hd : AMap.get k.docs did = some d) (hc : d.cgka = some c) {L : Local}
    {P : SOp → Prop} (h : ∃ q op, (c.update (E.hashCgka did) (L.signCgka did) L.gen 1 (L.gen 0)).2 = .ok (q, op) ∧ P op) :
    ∃ op, (k.forcePcsUpdate E L did).2 = .ok (op, L.gen 0) ∧ P op := by
  obtain ⟨q, op, h, hp⟩ := h
  refine ⟨op, ?_, hp⟩
  unfold Keyhive.forcePcsUpdate Doc.pcsUpdate
  simp only [hd, hc]
  cases hq : c.update (E.hashCgka did) (L.signCgka did) L.gen 1 (L.gen 0) with
  | mk c' y =>
    rw [hq] at h
    dsimp only at h
    subst h
    rfl

namespace AbleProps

/-- **C126** for members. A device that is the only one of its agent, in whose record of a document it is in the key group, can at any moment write in
the document and replace its key there: both calls succeed, and the key update puts the new key on the device's own place. The place must come
from creating the document, from being added by somebody else or from own key updates (see C113).
Missing: histories with operations concurrent to an addition or a removal, or with two concurrent updates of one member (see C80). -/
theorem C126_member_partial (hH : ∀ i, Function.Injective (E.hashCgka i)) {k : Keyhive} (hk : OnlyDevice E me k) {did : Id} {d : Doc} {b : Cgka}
    (hd : AMap.get k.docs did = some d) (hc : d.cgka = some b) (h1 : ChangesApart b) (h2 : UpdatesInTurn b) (h3 : FreshKeys b) (h4 : DistinctKeys b)
    (hin : b.tree.containsId b.ownerId = true) (hown : ∀ op, HasKeyOp E k did op → op.payload.GivesTo b.ownerId → Places me op)
    {L : Local} (hs : ∀ doc, GoodSigner (L.signCgka doc)) :
    (∀ r ps x, ∃ e o, (k.encryptContent E L did r ps x).2 = .ok (e, o)) ∧
    ∃ op pc ps, (k.forcePcsUpdate E L did).2 = .ok (op, L.gen 0) ∧ op.payload = .update b.ownerId pc ps ∧ pc.leafPk = .share (shareKey (L.gen 0)) := by
  have tb := fleet_trusted hH (only_fleet hk) hd hc
  have T := together_of (reachOk_inv (hH did) (trusted_ok tb)).graph h1 h2 h3
  have hl : b.graph.heads.length = 1 → HoldsLeaf b.tree b.ownerId b.ownerSks := fun hl =>
    PlaceProps.C113_holds_partial hH hk (only_fleet hk) hd hc hd hc h1 h2 h3 h4 (fun _ h => h) hl hin hown
  have a0 := able_member (hH did) tb T (hs did) hin hl L.gen 0
  have a1 := able_member (hH did) tb T (hs did) hin hl L.gen 1
  refine ⟨fun r ps x => encrypt_of hd hc (a0.1 r ps) x, ?_⟩
  obtain ⟨q, op, pc, ps, e1, e2, e3⟩ := a1.2 (L.gen 0)
  obtain ⟨op, f1, pc, ps, f2⟩ := update_of' (P := fun op => ∃ pc ps, op.payload = .update b.ownerId pc ps ∧ pc.leafPk = .share (shareKey (L.gen 0)))
    hd hc ⟨q, op, e1, pc, ps, e2, e3⟩
  exact ⟨op, pc, ps, f1, f2⟩

-- Alice, a reader whom agent 5 has added, writes and replaces their key.
open FleetSample Verif.Keyhive.Sample PlaceSample WriterSample in
example : (∀ r ps x, ∃ e o, (alice.encryptContent EF LA 300 r ps x).2 = .ok (e, o)) ∧
    ∃ op pc ps, (alice.forcePcsUpdate EF LA 300).2 = .ok (op, LA.gen 0) ∧ op.payload = .update 1 pc ps ∧ pc.leafPk = .share (shareKey (LA.gen 0)) := by
  obtain ⟨d, e1, e2⟩ := doc_of alice_has
  have ho : ((treeOf alice 300).get alice_has).ownerId = 1 := by decide +kernel
  have := C126_member_partial EF_inj alice_only e1 e2 (changes_of (by decide +kernel)) (turns_of (by decide +kernel)) (fresh_of (by decide +kernel))
    (Verif.Cgka.CutOffProps.Example.distinct_of (by decide +kernel)) (by decide +kernel) (fun op h hg => alice_places op h (ho ▸ hg)) (L := LA) LA_good
  rwa [ho] at this

/-- **C126** for public documents. Every device that has a document in whose key group the public individual is, with its well-known key, once
everything received is taken in, can at any moment write in the document and replace keys, also if its owner is not in the group.
Missing: as for members. -/
theorem C126_public_partial (hH : ∀ i, Function.Injective (E.hashCgka i)) {k : Keyhive} (hk : Fleet E k) {did : Id} {d : Doc} {b : Cgka}
    (hd : AMap.get k.docs did = some d) (hc : d.cgka = some b) (h1 : ChangesApart b) (h2 : UpdatesInTurn b) (h3 : FreshKeys b)
    (hout : b.tree.containsId b.ownerId = false)
    (hp : ∀ t, ReplaysTo (E.hashCgka did) b t → t.nodeKeyForId MemberId.pub = .ok (.share (shareKey publicSk)))
    {L : Local} (hs : ∀ doc, GoodSigner (L.signCgka doc)) :
    (∀ r ps x, ∃ e o, (k.encryptContent E L did r ps x).2 = .ok (e, o)) ∧
    ∃ op pc ps, (k.forcePcsUpdate E L did).2 = .ok (op, L.gen 0) ∧ op.payload = .update MemberId.pub pc ps ∧
      pc.leafPk = .share (shareKey publicSk) := by
  have tb := fleet_trusted hH hk hd hc
  have T := together_of (reachOk_inv (hH did) (trusted_ok tb)).graph h1 h2 h3
  have hsk : AMap.get b.ownerSks (shareKey publicSk) ≠ none := by
    rw [PublicProps.C111_secret_at_hand (fleet_reach hk) hd hc]; simp
  have a0 := able_public (hH did) tb T (hs did) hout hp hsk L.gen 0
  have a1 := able_public (hH did) tb T (hs did) hout hp hsk L.gen 1
  refine ⟨fun r ps x => encrypt_of hd hc (a0.1 r ps) x, ?_⟩
  obtain ⟨q, op, pc, ps, e1, e2, e3⟩ := a1.2 (L.gen 0)
  obtain ⟨op, f1, pc, ps, f2⟩ := update_of' (P := fun op => ∃ pc ps, op.payload = .update MemberId.pub pc ps ∧ pc.leafPk = .share (shareKey publicSk))
    hd hc ⟨q, op, e1, pc, ps, e2, e3⟩
  exact ⟨op, pc, ps, f1, f2⟩

-- Agent 5 has made a document public; Alice, who is not in the key group, writes in it.
open FleetSample Verif.Keyhive.Sample WriterSample in
example : ∀ r ps x, ∃ e o, (anyone.encryptContent EAny LA 300 r ps x).2 = .ok (e, o) := by
  obtain ⟨d, e1, e2⟩ := doc_of anyone_has
  refine (C126_public_partial EAny_inj anyone_fleet e1 e2 (changes_of (by decide +kernel)) (turns_of (by decide +kernel)) (fresh_of (by decide +kernel))
    (by decide +kernel) ?_ (L := LA) LA_good).1
  intro t ht
  have tb := fleet_trusted EAny_inj anyone_fleet e1 e2
  have sb := reachOk_inv (EAny_inj 300) (trusted_ok tb)
  obtain ⟨t', t1, -, -, t4⟩ := replays_strong (EAny_inj 300) tb (together_of sb.graph (changes_of (by decide +kernel)) (turns_of (by decide +kernel))
    (fresh_of (by decide +kernel)))
  obtain ⟨r, h1, h2⟩ := rebuilt_replays.2 ht
  obtain ⟨r', h1', h2'⟩ := rebuilt_replays.2 t1
  rw [h1] at h1'
  cases h1'
  rw [← h2, h2', t4 (by decide +kernel)]
  decide +kernel

/-- C126 fails for a document's creator once somebody else has made the document public for a time. Alice creates a document together with agent 5,
who adds the public individual, removes it again and writes. Alice's device has received all of it, counts them in the key group, and no two things
happened at the same time; and yet it cannot write, whatever the content and the randomness: it does not hold the secret of its place (see C113). -/
theorem C126_fails : ∃ (E : Env) (k : Keyhive) (d : Doc) (b : Cgka), (∀ i, Function.Injective (E.hashCgka i)) ∧ OnlyDevice E 1 k ∧
    AMap.get k.docs 300 = some d ∧ d.cgka = some b ∧ ChangesApart b ∧ UpdatesInTurn b ∧ FreshKeys b ∧ DistinctKeys b ∧ b.ownerId = 1 ∧
    b.tree.containsId 1 = true ∧ ∀ L r ps x, ∃ err, (k.encryptContent E L 300 r ps x).2 = .error err := by
  open FleetSample Verif.Keyhive.Sample PlaceSample in
  obtain ⟨d, e1, e2⟩ := doc_of aliceU_has
  refine ⟨EU, aliceU, d, _, EU_inj, aliceU_only, e1, e2, changes_of (by decide +kernel), turns_of (by decide +kernel), fresh_of (by decide +kernel),
    Verif.Cgka.CutOffProps.Example.distinct_of (by decide +kernel), by decide +kernel, by decide +kernel, ?_⟩
  intro L r ps x
  have hkey : ((treeOf aliceU 300).get aliceU_has).hasPcsKey = .ok true := by decide +kernel
  have hroot : ((treeOf aliceU 300).get aliceU_has).pcsKeyFromTreeRoot.toOption.isNone = true := by decide +kernel
  unfold Keyhive.encryptContent Doc.encryptContent
  simp only [e1, e2]
  unfold Cgka.newAppSecretFor
  rw [hkey]
  cases hq : ((treeOf aliceU 300).get aliceU_has).pcsKeyFromTreeRoot with
  | error e => exact ⟨_, rfl⟩
  | ok p => rw [hq] at hroot; cases hroot

end AbleProps

end Verif.Keyhive
