import Verif.Keyhive.SpreadLemmas
import Verif.Keyhive.JoinProps

/-!
# A change in a group takes effect in the documents the group is a member of (C123)

The vocabulary is in `Verif.Keyhive.{PlaceSpec, HeldSpec, FleetSpec}`, `Verif.Cgka.{TogetherSpec, CutOffSpec}`.
-/

namespace Verif.Keyhive

open Verif.Group Verif.Cgka Verif.BeeKem

variable {E : Env} {me : Id} {K : Sk → Prop}

namespace SpreadSample

open Verif.Keyhive.Sample FleetSample HeldSample ShutSample

/-- Agent 5 has made group 200 and document 300, and the group may read the document. -/
def club (E : Env) : Keyhive :=
  (((k0.generateGroup E sg 200 []).1.generateDoc E L sg 300 [] [1]).1.addMemberToDoc E L 300 ⟨.group, 200⟩ .read []).1
/-- And makes Alice a reading member of the group. -/
def clubbed (E : Env) : Keyhive := ((club E).addMemberToGroup E L 200 ⟨.individual, 1⟩ .read []).1
/-- And takes Alice out of the group. -/
def left (E : Env) : Keyhive := ((clubbed E).revokeFromGroup E L 200 1 true []).1

theorem club_fleet (hc : SOp → Nat) : Fleet (env hc) (club (env hc)) :=
  .call (.addToDoc L 300 ⟨.group, 200⟩ .read []) (.call (.newDoc L sg 300 [] [1]) (.call (.newGroup sg 200 [])
    (.start reg [(⟨55⟩, 55)] rfl (Verif.Cgka.Sample.honest_one 55)) trivial (sg_signs hc) trivial) trivial ⟨sg_signs hc, L_honest hc⟩ L_good)
    trivial (L_honest hc) L_good
theorem clubbed_fleet (hc : SOp → Nat) : Fleet (env hc) (clubbed (env hc)) :=
  .call (.addToGroup L 200 ⟨.individual, 1⟩ .read []) (club_fleet hc) trivial (L_honest hc) L_good

theorem club_has : (treeOf (club EF) 300).isSome = true := by decide +kernel
theorem clubbed_has : (treeOf (clubbed EF) 300).isSome = true := by decide +kernel
theorem clubbedH_has : (treeOf (clubbed EH) 300).isSome = true := by decide +kernel
theorem left_has : (treeOf (left EH) 300).isSome = true := by decide +kernel
/-- Agent 5 writes after Alice clubbed. -/
noncomputable def wrote : Keyhive := ((clubbed EF).encryptContent EF L2 300 7 8 42).1
theorem wrote_has : (treeOf wrote 300).isSome = true := by decide +kernel
/-- Agent 5 writes after Alice left. -/
noncomputable def later : Keyhive := ((left EH).encryptContent EH L2 300 7 8 42).1
theorem later_has : (treeOf later 300).isSome = true := by decide +kernel

/-- Document 400 starts a key tree. -/
def u0 : SOp := ⟨.add 400 ⟨700⟩ 0 [] [], 5, 5400⟩
/-- Agent 5 joins it. -/
def u1 : SOp := ⟨.add 5 ⟨55⟩ 1 [5] [5], 5, 5005⟩
/-- And updates. -/
def u2 : SOp :=
  let store := { versions := [{ pk := ⟨701⟩, sk := [(.leaf 1, boxed), (.leaf 0, boxed)], encrypterPk := ⟨700⟩ }] }
  ⟨.update 400 { leafId := 400, leafIdx := 0, leafPk := .share ⟨700⟩, path := [(0, store)], removedKeys := [⟨700⟩] } [6], 5, 5900⟩
/-- Alice joins. -/
def u3 : SOp := ⟨.add 1 ⟨11⟩ 2 [7] [6], 5, 5001⟩
/-- And is removed. -/
def u4 : SOp := ⟨.remove 1 2 [] [8], 5, 5501⟩

/-- The digest of the operations of both documents. -/
noncomputable def hcN : SOp → Nat := tableH [t0, t1, t2, t3, t5, u0, u1, u2, u3, u4]
/-- Digests and signatures. -/
noncomputable def EN : Env := env hcN
theorem EN_inj : ∀ i, Function.Injective (EN.hashCgka i) := fun _ => tableH_injective _

/-- Agent 5 has made document 400, with Alice as a reader, and document 300. Whoever can read document 400 can read document 300. -/
noncomputable def nested : Keyhive :=
  ((((k0.generateDoc EN L sg 400 [] [1]).1.addMemberToDoc EN L 400 ⟨.individual, 1⟩ .read []).1.generateDoc EN L sg 300 [] [1]).1.addMemberToDoc
    EN L 300 ⟨.document, 400⟩ .read []).1
theorem nested_fleet : Fleet EN nested :=
  .call (.addToDoc L 300 ⟨.document, 400⟩ .read []) (.call (.newDoc L sg 300 [] [1]) (.call (.addToDoc L 400 ⟨.individual, 1⟩ .read [])
    (.call (.newDoc L sg 400 [] [1]) (.start reg [(⟨55⟩, 55)] rfl (Verif.Cgka.Sample.honest_one 55)) trivial ⟨sg_signs hcN, L_honest hcN⟩ L_good)
    trivial (L_honest hcN) L_good) trivial ⟨sg_signs hcN, L_honest hcN⟩ L_good) trivial (L_honest hcN) L_good
/-- Agent 5 revokes Alice from document 400. -/
noncomputable def nested' : Keyhive := (nested.revokeFromDoc EN L 400 1 true []).1
theorem nested'_fleet : Fleet EN nested' := .call (.revokeFromDoc L 400 1 true []) nested_fleet trivial (L_honest hcN) L_good
/-- And writes in document 300. -/
noncomputable def nested'' : Keyhive := (nested'.encryptContent EN L2 300 7 8 42).1
theorem nested''_fleet : Fleet EN nested'' := .call (.encrypt L2 300 7 8 42) nested'_fleet trivial (L2_honest _) L2_good
/-- Alice's device. -/
noncomputable def reader : Keyhive := feed EN (Keyhive.start regA [(⟨11⟩, 11)]) (mail [t0, t1, t2, t3, t5])
theorem reader_fleet : Fleet EN reader := by
  refine mail_fleet nested''_fleet _ (by decide +kernel) ?_
  intro op ho pk i ps as he
  simp only [List.mem_cons, List.not_mem_nil, or_false] at ho
  rcases ho with rfl | rfl | rfl | rfl | rfl <;> cases he

end SpreadSample

namespace SpreadProps

/-- **C123**, the operations of a revocation. The device `w` revokes a member from a group. Then in every document with nothing waiting to be
replayed, for each individual the key group loses, the operations handed back for sending contain a removal of the individual. The device has
recorded it, and everything the device had recorded of the document before comes before it. Missing: operations waiting (`C74_fails_for_remove`). -/
theorem C123_removal_partial (hH : ∀ i, Function.Injective (E.hashCgka i)) {w w1 : Keyhive} (hw : Fleet E w) {L : Local}
    (hs : ∀ doc, GoodSigner (L.signCgka doc)) {gid member : Id} {retain : Bool} {content : Content} {ops : List SOp}
    (h : w.revokeFromGroup E L gid member retain content = (w1, .ok ops)) {did : Id} {d d1 : Doc} {c c1 : Cgka} (hd : AMap.get w.docs did = some d)
    (hc : d.cgka = some c) (hcur : Current c) (hd1 : AMap.get w1.docs did = some d1) (hc1 : d1.cgka = some c1) {id : MemberId}
    (hin : c.tree.containsId id = true) (hout : c1.tree.containsId id = false) :
    ∃ op i rk qs, op ∈ ops ∧ op.payload = .remove id i rk qs ∧ HasKeyOp E w1 did op ∧
      ∀ op', HasKeyOp E w did op' → Before c1 (E.hashCgka did op') (E.hashCgka did op) := by
  obtain ⟨d', c', a1, a2, a3⟩ := revokeFromGroup_cuts hH hs h did d c hd hc (fleet_trusted hH hw hd hc) hcur
  rw [hd1] at a1
  cases a1
  rw [hc1] at a2
  cases a2
  obtain ⟨op, i, rk, qs, e1, e2, e3, e4⟩ := a3.lost id hin hout
  refine ⟨op, i, rk, qs, e1, e2, ⟨d1, c1, hd1, hc1, e3⟩, ?_⟩
  rintro op' ⟨d', c', f1, f2, f3⟩
  rw [hd] at f1
  cases f1
  rw [hc] at f2
  cases f2
  exact e4 _ ⟨op', f3⟩

/-- **C123**, the operations of an addition. The device `w` adds a member to a group. Then in every document with nothing waiting to be replayed,
for each individual the key group gains, the operations handed back for sending contain an addition of the individual. The device has recorded
it, and everything the device had recorded of the document before comes before it. Missing: operations waiting (`C74_fails_for_add`). -/
theorem C123_addition_partial (hH : ∀ i, Function.Injective (E.hashCgka i)) {w w1 : Keyhive} (hw : Fleet E w) {L : Local}
    (hs : ∀ doc, GoodSigner (L.signCgka doc)) {gid : Id} {who : Agent} {can : Access} {content : Content} {dl : Dlg} {ops : List SOp}
    (h : w.addMemberToGroup E L gid who can content = (w1, .ok (dl, ops))) {did : Id} {d d1 : Doc} {c c1 : Cgka} (hd : AMap.get w.docs did = some d)
    (hc : d.cgka = some c) (hcur : Current c) (hd1 : AMap.get w1.docs did = some d1) (hc1 : d1.cgka = some c1) {id : MemberId}
    (hout : c.tree.containsId id = false) (hin : c1.tree.containsId id = true) :
    ∃ op pk i qs as, op ∈ ops ∧ op.payload = .add id pk i qs as ∧ HasKeyOp E w1 did op ∧
      ∀ op', HasKeyOp E w did op' → Before c1 (E.hashCgka did op') (E.hashCgka did op) := by
  obtain ⟨d', c', a1, a2, a3⟩ := addMemberToGroup_lets hH hs h did d c hd hc (fleet_trusted hH hw hd hc) hcur
  rw [hd1] at a1
  cases a1
  rw [hc1] at a2
  cases a2
  obtain ⟨op, pk, i, qs, as, e1, e2, e3, e4⟩ := a3.won id hout hin
  refine ⟨op, pk, i, qs, as, e1, e2, ⟨d1, c1, hd1, hc1, e3⟩, ?_⟩
  rintro op' ⟨d', c', f1, f2, f3⟩
  rw [hd] at f1
  cases f1
  rw [hc] at f2
  cases f2
  exact e4 _ ⟨op', f3⟩

theorem revoke_fleet {w w1 : Keyhive} (hw : Fleet E w) {L : Local} (hL : L.Honest E) (hs : ∀ doc, GoodSigner (L.signCgka doc)) {gid member : Id}
    {retain : Bool} {content : Content} {ops : List SOp} (h : w.revokeFromGroup E L gid member retain content = (w1, .ok ops)) : Fleet E w1 := by
  have := Fleet.call (.revokeFromGroup L gid member retain content) hw trivial hL hs
  have hr : (Call.revokeFromGroup L gid member retain content).run E w = w1 := by
    show (w.revokeFromGroup E L gid member retain content).1 = w1
    rw [h]
  rwa [hr] at this

theorem add_fleet {w w1 : Keyhive} (hw : Fleet E w) {L : Local} (hL : L.Honest E) (hs : ∀ doc, GoodSigner (L.signCgka doc)) {gid : Id} {who : Agent}
    {can : Access} {content : Content} {dl : Dlg} {ops : List SOp} (h : w.addMemberToGroup E L gid who can content = (w1, .ok (dl, ops))) :
    Fleet E w1 := by
  have := Fleet.call (.addToGroup L gid who can content) hw trivial hL hs
  have hr : (Call.addToGroup L gid who can content).run E w = w1 := by
    show (w.addMemberToGroup E L gid who can content).1 = w1
    rw [h]
  rwa [hr] at this

/-- **C123** for revocations. The device `w` revokes a member from a group, and the key group of a document loses individual `id` (for whom it loses
see C52). The device `v` writes in the document when it has all the group-key operations of the document `w` then has, and knows of none that
gives keys to `id` other than those `w` had before the revocation. A device `k` whose secrets are, as far as the writer knows, only ones given to
`id` cannot read what is written, even with everybody's operations. All devices run the library; for the conditions on the history see C80.
Missing: writers that know of operations concurrent with an addition or a removal, and operations waiting at the revocation. -/
theorem C123_shut_out_partial (hp : K publicSk) (hH : ∀ i, Function.Injective (E.hashCgka i)) {w w1 v v' k : Keyhive} (hw : Fleet E w) {L : Local}
    (hL : L.Honest E) (hs : ∀ doc, GoodSigner (L.signCgka doc)) {gid member : Id} {retain : Bool} {content : Content} {ops : List SOp}
    (h : w.revokeFromGroup E L gid member retain content = (w1, .ok ops)) {did : Id} {d d1 : Doc} {c c1 : Cgka} (hd : AMap.get w.docs did = some d)
    (hc : d.cgka = some c) (hcur : Current c) (hd1 : AMap.get w1.docs did = some d1) (hc1 : d1.cgka = some c1) {id : MemberId}
    (hin : c.tree.containsId id = true) (hout : c1.tree.containsId id = false)
    (hv : Fleet E v) {L' : Local} (hL' : L'.Honest E) (hs' : ∀ doc, GoodSigner (L'.signCgka doc)) {r ps x : Nat} {e : EncContent} {o : Option SOp}
    (he : v.encryptContent E L' did r ps x = (v', .ok (e, o))) (hall : ∀ op, HasKeyOp E w1 did op → HasKeyOp E v' did op)
    (hgive : ∀ op, HasKeyOp E v' did op → op.payload.GivesTo id → HasKeyOp E w did op) {da db : Doc} {a b : Cgka}
    (hda : AMap.get v'.docs did = some da) (hca : da.cgka = some a) (h1 : ChangesApart a) (h2 : UpdatesInTurn a)
    (hk : Fleet E k) (hK : Holder E K k) (hdb : AMap.get k.docs did = some db) (hcb : db.cgka = some b)
    (hkn : ∀ op, HasKeyOp E v' did op → HasKeyOp E k did op) (hf : FreshKeys b) (hdk : DistinctKeys b) (hu : ∀ s, K s → OnlyOf a id s)
    (res : Nat × AppKey) : (k.decryptContent E did e).2 ≠ .ok res := by
  obtain ⟨d', c', a1, a2, a3⟩ := revokeFromGroup_cuts hH hs h did d c hd hc (fleet_trusted hH hw hd hc) hcur
  rw [hd1] at a1
  cases a1
  rw [hc1] at a2
  cases a2
  exact cuts_shut hp hH (revoke_fleet hw hL hs h) hd hc hd1 hc1 a3 hin hout hv hL' hs' he hall hgive hda hca h1 h2 hk hK hdb hcb hkn hf hdk hu res

/-- **C123** for what the revoking device itself writes next. Missing: as for `C123_shut_out_partial`. -/
theorem C123_next_write_partial (hp : K publicSk) (hH : ∀ i, Function.Injective (E.hashCgka i)) {w w1 v' k : Keyhive} (hw : Fleet E w) {L : Local}
    (hL : L.Honest E) (hs : ∀ doc, GoodSigner (L.signCgka doc)) {gid member : Id} {retain : Bool} {content : Content} {ops : List SOp}
    (h : w.revokeFromGroup E L gid member retain content = (w1, .ok ops)) {did : Id} {d d1 : Doc} {c c1 : Cgka} (hd : AMap.get w.docs did = some d)
    (hc : d.cgka = some c) (hcur : Current c) (hd1 : AMap.get w1.docs did = some d1) (hc1 : d1.cgka = some c1) {id : MemberId}
    (hin : c.tree.containsId id = true) (hout : c1.tree.containsId id = false)
    {L' : Local} (hL' : L'.Honest E) (hs' : ∀ doc, GoodSigner (L'.signCgka doc)) {r ps x : Nat} {e : EncContent} {o : Option SOp}
    (he : w1.encryptContent E L' did r ps x = (v', .ok (e, o))) {da db : Doc} {a b : Cgka}
    (hda : AMap.get v'.docs did = some da) (hca : da.cgka = some a) (h1 : ChangesApart a) (h2 : UpdatesInTurn a)
    (hk : Fleet E k) (hK : Holder E K k) (hdb : AMap.get k.docs did = some db) (hcb : db.cgka = some b)
    (hkn : ∀ op, HasKeyOp E v' did op → HasKeyOp E k did op) (hf : FreshKeys b) (hdk : DistinctKeys b) (hu : ∀ s, K s → OnlyOf a id s)
    (res : Nat × AppKey) : (k.decryptContent E did e).2 ≠ .ok res := by
  obtain ⟨d', c', a1, a2, a3⟩ := revokeFromGroup_cuts hH hs h did d c hd hc (fleet_trusted hH hw hd hc) hcur
  rw [hd1] at a1
  cases a1
  rw [hc1] at a2
  cases a2
  exact cuts_next hp hH (revoke_fleet hw hL hs h) hd hc hd1 hc1 a3 hin hout hL' hs' he hda hca h1 h2 hk hK hdb hcb hkn hf hdk hu res

-- Agent 5 takes Alice out of the group and writes in the document; Alice's device, with all operations, cannot read it.
open SpreadSample HeldSample Verif.Keyhive.Sample Verif.Keyhive.FleetSample Verif.Cgka.CutOffProps.Example in
example : ∃ ops e o, (clubbed EH).revokeFromGroup EH L 200 1 true [] = (left EH, .ok ops) ∧
    (left EH).encryptContent EH L2 300 7 8 42 = (later, .ok (e, o)) ∧ ∀ res, (removed.decryptContent EH 300 e).2 ≠ .ok res := by
  obtain ⟨d, f1, f2⟩ := doc_of removed_has
  obtain ⟨d', f3, f4⟩ := doc_of later_has
  obtain ⟨dm, f5, f6⟩ := doc_of clubbedH_has
  obtain ⟨dg, f7, f8⟩ := doc_of left_has
  obtain ⟨e, o, he⟩ := write_some (E := EH) (k := left EH) (L := L2) (by decide +kernel)
  obtain ⟨ops, hops⟩ : ∃ ops, (clubbed EH).revokeFromGroup EH L 200 1 true [] = (left EH, .ok ops) := by
    have h : isOk ((clubbed EH).revokeFromGroup EH L 200 1 true []).2 = true := by decide +kernel
    unfold left
    cases hr : (clubbed EH).revokeFromGroup EH L 200 1 true [] with
    | mk k' r =>
      rw [hr] at h
      cases r with
      | error err => cases h
      | ok ops => exact ⟨ops, rfl⟩
  refine ⟨ops, e, o, hops, he, fun res => C123_next_write_partial (K := keys) (id := 1) (.inl rfl) EH_inj (clubbed_fleet hcH) (L_honest hcH) L_good hops
    f5 f6 (by decide +kernel) f7 f8 (by decide +kernel) (by decide +kernel) (L2_honest _) L2_good he f3 f4 (changes_of (by decide +kernel))
    (turns_of (by decide +kernel)) removed_fleet (withKey_holder _) f1 f2 (all_of later_has (by decide +kernel)) (fresh_of (by decide +kernel))
    (distinct_of (by decide +kernel)) ?_ res⟩
  intro s hs y o' hy hu
  have hl : users ((treeOf later 300).get later_has) (fun s => decide (s = 0 ∨ s = 11)) = [(3, t3)] := by decide +kernel
  have := users_of (p := fun s => decide (s = 0 ∨ s = 11)) (decide_eq_true hs) hy hu
  rw [hl] at this
  simp only [List.mem_singleton, Prod.mk.injEq] at this
  rw [this.2]; rfl

/-- **C123** for additions. The device `w` adds a member to a group, the key group of a document gains individual `me` (for whom it gains see C52),
and `w` writes in the document. Then the write makes a key update, and the device of `me`, once it has the group-key operations of the document
the writer has, reads what was written. All devices run the library; for the conditions on the history see C80, and on how `me` got a place in
the group C113. Missing: operations concurrent with an addition or a removal, and operations waiting at the addition. -/
theorem C123_join_write_partial (hH : ∀ i, Function.Injective (E.hashCgka i)) {w w1 v' k : Keyhive} (hw : Fleet E w) {L : Local}
    (hL : L.Honest E) (hs : ∀ doc, GoodSigner (L.signCgka doc)) {gid : Id} {who : Agent} {can : Access} {content : Content} {dl : Dlg} {ops : List SOp}
    (h : w.addMemberToGroup E L gid who can content = (w1, .ok (dl, ops))) {did : Id} {d d1 : Doc} {c c1 : Cgka} (hd : AMap.get w.docs did = some d)
    (hc : d.cgka = some c) (hcur : Current c) (hd1 : AMap.get w1.docs did = some d1) (hc1 : d1.cgka = some c1)
    (hout : c.tree.containsId me = false) (hin : c1.tree.containsId me = true)
    {L' : Local} (hL' : L'.Honest E) (hs' : ∀ doc, GoodSigner (L'.signCgka doc)) {r ps x : Nat} {e : EncContent} {o : Option SOp}
    (he : w1.encryptContent E L' did r ps x = (v', .ok (e, o))) (hk : OnlyDevice E me k) {db : Doc} {b : Cgka}
    (hdb : AMap.get k.docs did = some db) (hcb : db.cgka = some b) (hme : b.ownerId = me) (h1 : ChangesApart b) (h2 : UpdatesInTurn b)
    (h3 : FreshKeys b) (h4 : DistinctKeys b) (hkn : ∀ op, HasKeyOp E v' did op → HasKeyOp E k did op)
    (hown : ∀ op, HasKeyOp E k did op → op.payload.GivesTo me → Places me op) :
    (∃ op, o = some op) ∧ ∃ key, (k.decryptContent E did e).2 = .ok (x, key) := by
  obtain ⟨d', c', a1, a2, a3⟩ := addMemberToGroup_lets hH hs h did d c hd hc (fleet_trusted hH hw hd hc) hcur
  rw [hd1] at a1
  cases a1
  rw [hc1] at a2
  cases a2
  exact lets_next hH (add_fleet hw hL hs h) hd1 hc1 a3 hout hin hL' hs' he hk hdb hcb hme h1 h2 h3 h4 hkn hown

-- Agent 5 makes Alice a member of the group and writes in the document; Alice's device reads it.
open SpreadSample HeldSample Verif.Keyhive.Sample FleetSample PlaceSample Verif.Cgka.CutOffProps.Example in
example : ∃ dl ops e o, (club EF).addMemberToGroup EF L 200 ⟨.individual, 1⟩ .read [] = (clubbed EF, .ok (dl, ops)) ∧
    (clubbed EF).encryptContent EF L2 300 7 8 42 = (wrote, .ok (e, some o)) ∧ ∃ key, (alice.decryptContent EF 300 e).2 = .ok (42, key) := by
  obtain ⟨d, f1, f2⟩ := doc_of alice_has
  obtain ⟨dm, f5, f6⟩ := doc_of club_has
  obtain ⟨dg, f7, f8⟩ := doc_of clubbed_has
  obtain ⟨e, o, he⟩ := write_some (E := EF) (k := clubbed EF) (L := L2) (by decide +kernel)
  obtain ⟨dl, ops, hops⟩ : ∃ dl ops, (club EF).addMemberToGroup EF L 200 ⟨.individual, 1⟩ .read [] = (clubbed EF, .ok (dl, ops)) := by
    have h : isOk ((club EF).addMemberToGroup EF L 200 ⟨.individual, 1⟩ .read []).2 = true := by decide +kernel
    unfold clubbed
    cases hr : (club EF).addMemberToGroup EF L 200 ⟨.individual, 1⟩ .read [] with
    | mk k' r =>
      rw [hr] at h
      cases r with
      | error err => cases h
      | ok p => exact ⟨p.1, p.2, rfl⟩
  have hown : ((treeOf alice 300).get alice_has).ownerId = 1 := by decide +kernel
  obtain ⟨⟨op, rfl⟩, key, hkey⟩ := C123_join_write_partial (me := 1) EF_inj (club_fleet hcF) (L_honest hcF) L_good hops f5 f6 (by decide +kernel) f7 f8
    (by decide +kernel) (by decide +kernel) (L2_honest _) L2_good he alice_only f1 f2 hown (changes_of (by decide +kernel))
    (turns_of (by decide +kernel)) (fresh_of (by decide +kernel)) (distinct_of (by decide +kernel)) (all_of wrote_has (by decide +kernel)) alice_places
  exact ⟨dl, ops, e, op, hops, he, key, hkey⟩

open SpreadSample ShutSample HeldSample Verif.Keyhive.Sample Verif.Keyhive.FleetSample in
/-- Changes in a document do not reach the documents it is a member of. Readers of document 400 are readers of document 300. Agent 5 revokes Alice
from document 400, and from then on does not count Alice among the members of document 300. Agent 5 then writes in document 300, and Alice's
device reads it. All devices run the library. -/
theorem C123_fails : ∃ (E : Env) (L L' : Local) (w w1 v' k : Keyhive) (ops : List SOp) (d d1 : Doc) (tm tm1 : AMap Id (Agent × Access)) (e : EncContent)
    (o : Option SOp) (key : AppKey), (∀ i, Function.Injective (E.hashCgka i)) ∧ Fleet E w ∧ Fleet E k ∧ Holder E keys k ∧
    AMap.get w.docs 300 = some d ∧ transitiveMembers w.world [300] d.group = .ok tm ∧ AMap.get tm 1 = some (⟨.individual, 1⟩, .read) ∧
    w.revokeFromDoc E L 400 1 true [] = (w1, .ok ops) ∧
    AMap.get w1.docs 300 = some d1 ∧ transitiveMembers w1.world [300] d1.group = .ok tm1 ∧ AMap.get tm1 1 = none ∧
    w1.encryptContent E L' 300 7 8 42 = (v', .ok (e, o)) ∧ (k.decryptContent E 300 e).2 = .ok (42, key) := by
  have hrv : isOk (nested.revokeFromDoc EN L 400 1 true []).2 = true := by decide +kernel
  have hm : (AMap.get nested.docs 300).bind (fun d => (transitiveMembers nested.world [300] d.group).toOption.map (fun tm => AMap.get tm 1)) =
      some (some (⟨.individual, 1⟩, .read)) := by decide +kernel
  have hm1 : (AMap.get nested'.docs 300).bind (fun d => (transitiveMembers nested'.world [300] d.group).toOption.map (fun tm => AMap.get tm 1)) =
      some none := by decide +kernel
  have hread : ((nested'.encryptContent EN L2 300 7 8 42).2.toOption.bind (fun p => (reader.decryptContent EN 300 p.1).2.toOption.map Prod.fst)) =
      some 42 := by decide +kernel
  obtain ⟨d, hd, hm⟩ := Option.bind_eq_some_iff.1 hm
  obtain ⟨d1, hd1, hm1⟩ := Option.bind_eq_some_iff.1 hm1
  obtain ⟨tm, ht, hm⟩ := Option.map_eq_some_iff.1 hm
  obtain ⟨tm1, ht1, hm1⟩ := Option.map_eq_some_iff.1 hm1
  have ok_of : ∀ {α ε : Type} {x : Except ε α} {a : α}, x.toOption = some a → x = .ok a := by
    intro α ε x a h
    cases x with
    | error e => cases h
    | ok b => cases h; rfl
  obtain ⟨ops, hops⟩ : ∃ ops, nested.revokeFromDoc EN L 400 1 true [] = (nested', .ok ops) := by
    unfold nested'
    cases hr : nested.revokeFromDoc EN L 400 1 true [] with
    | mk k' r =>
      rw [hr] at hrv
      cases r with
      | error err => cases hrv
      | ok ops => exact ⟨ops, rfl⟩
  cases hw : nested'.encryptContent EN L2 300 7 8 42 with
  | mk v' r =>
    rw [hw] at hread
    cases r with
    | error err => cases hread
    | ok p =>
      obtain ⟨e, o⟩ := p
      cases hdec : (reader.decryptContent EN 300 e).2 with
      | error err => simp [hdec, Except.toOption] at hread
      | ok q =>
        obtain ⟨x, key⟩ := q
        simp [hdec, Except.toOption] at hread
        subst hread
        exact ⟨EN, L, L2, nested, nested', v', reader, ops, d, d1, tm, tm1, e, o, key, EN_inj, nested_fleet, reader_fleet,
          feed_holder (.start regA [(⟨11⟩, 11)] (by simp [keys])), hd, ok_of ht, hm, hops, hd1, ok_of ht1, hm1, hw, hdec⟩

end SpreadProps

end Verif.Keyhive
