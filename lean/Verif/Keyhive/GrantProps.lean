import Verif.Keyhive.LostProps

/-!
# Whoever is given the right to read can read what is written afterwards (C125)

The vocabulary is in `Verif.Keyhive.{Spec, PlaceSpec, FleetSpec}` and `Verif.Cgka.TogetherSpec`.
-/

namespace Verif.Keyhive

open Verif.Group Verif.Cgka Verif.BeeKem

variable {E : Env} {me : Id}

namespace GrantSample

open Verif.Keyhive.Sample FleetSample SpreadSample

/-- Agent 5 has made documents 400 and 300. Whoever can read document 400 can read document 300. -/
noncomputable def linked : Keyhive :=
  (((k0.generateDoc EN L sg 400 [] [1]).1.generateDoc EN L sg 300 [] [1]).1.addMemberToDoc EN L 300 ⟨.document, 400⟩ .read []).1
theorem linked_fleet : Fleet EN linked :=
  .call (.addToDoc L 300 ⟨.document, 400⟩ .read []) (.call (.newDoc L sg 300 [] [1]) (.call (.newDoc L sg 400 [] [1])
    (.start reg [(⟨55⟩, 55)] rfl (Verif.Cgka.Sample.honest_one 55)) trivial ⟨sg_signs hcN, L_honest hcN⟩ L_good)
    trivial ⟨sg_signs hcN, L_honest hcN⟩ L_good) trivial (L_honest hcN) L_good
/-- Agent 5 makes Alice a reader of document 400. -/
noncomputable def linked' : Keyhive := (linked.addMemberToDoc EN L 400 ⟨.individual, 1⟩ .read []).1
/-- And writes in document 300. -/
noncomputable def linked'' : Keyhive := (linked'.encryptContent EN L2 300 7 8 42).1
/-- Alice's device has the key operations of document 300. -/
noncomputable def outsider : Keyhive := feed EN (Keyhive.start regA [(⟨11⟩, 11)]) (mail [t0, t1, t2])
theorem outsider_only : OnlyDevice EN 1 outsider := by
  refine JoinSample.feed_only2 linked_fleet linked_fleet (.start regA [(⟨11⟩, 11)] rfl (Verif.Cgka.Sample.honest_one 11) rfl) ?_
  have h : ∀ op ∈ [t0, t1, t2], recorded linked 300 (EN.hashCgka 300 op) = some op := by decide +kernel
  have h' : ∀ op ∈ [t0, t1, t2], op.issuer ≠ 1 := by decide
  intro did op ho
  have : did = 300 ∧ op ∈ [t0, t1, t2] := by
    simp only [mail, List.mem_cons, reduceCtorEq, false_or, List.mem_map, Event.cgka.injEq] at ho
    obtain ⟨o, ho, rfl, rfl⟩ := ho
    exact ⟨rfl, List.mem_cons.2 (ho.imp id (fun h => List.mem_cons.2 (h.imp id (fun h => List.mem_cons.2 h))))⟩
  obtain ⟨rfl, h1⟩ := this
  refine ⟨.inl (has_of (h op h1)), ?_, h' op h1⟩
  intro pk i ps as he
  simp only [List.mem_cons, List.not_mem_nil, or_false] at h1
  rcases h1 with rfl | rfl | rfl <;> cases he

end GrantSample

namespace GrantProps

/-- **C125** for documents. The device `w` gives a member access that includes reading. Individual `me` is behind the member and was not in the key
group. What `w` then writes in the document makes a key update, and the device of `me`, once it has the group-key operations the writer has,
reads it. For the conditions on the history see C80, and on how `me` got a place in the key group C113. Missing: histories with operations
concurrent to an addition or a removal, and operations waiting at the addition. -/
theorem C125_document_partial (hH : ∀ i, Function.Injective (E.hashCgka i)) {w w1 v' k : Keyhive} (hw : Fleet E w) {L : Local}
    (hL : L.Honest E) (hs : ∀ doc, GoodSigner (L.signCgka doc)) {did : Id} {who : Agent} {can : Access} {content : Content} {dl : Dlg} {ops : List SOp}
    (h : w.addMemberToDoc E L did who can content = (w1, .ok (dl, ops))) (hcan : can.isReader = true) (hone : OneKind w1.world who)
    (hb : Behind w1.world who me) {d : Doc} {c : Cgka} (hd : AMap.get w.docs did = some d) (hc : d.cgka = some c) (hcur : Current c)
    (hout : c.tree.containsId me = false)
    {L' : Local} (hL' : L'.Honest E) (hs' : ∀ doc, GoodSigner (L'.signCgka doc)) {r ps x : Nat} {e : EncContent} {o : Option SOp}
    (he : w1.encryptContent E L' did r ps x = (v', .ok (e, o))) (hk : OnlyDevice E me k) {db : Doc} {b : Cgka}
    (hdb : AMap.get k.docs did = some db) (hcb : db.cgka = some b) (hme : b.ownerId = me) (h1 : ChangesApart b) (h2 : UpdatesInTurn b)
    (h3 : FreshKeys b) (h4 : DistinctKeys b) (hkn : ∀ op, HasKeyOp E v' did op → HasKeyOp E k did op)
    (hown : ∀ op, HasKeyOp E k did op → op.payload.GivesTo me → Places me op) :
    (∃ op, o = some op) ∧ ∃ key, (k.decryptContent E did e).2 = .ok (x, key) := by
  obtain ⟨d1, c1, a1, a2, -, a3⟩ := KeyTreeProps.C52_add_to_document_partial (fleet_reach hw) hd hc hcur h hone
  exact JoinProps.C122_next_write_partial hH hw hL hs h hd hc hcur a1 a2 hout ((a3 hcan me).2 (.inl hb)) hL' hs' he hk hdb hcb hme h1 h2 h3 h4 hkn hown

/-- **C125** for groups: as `C125_document_partial`, for a member added to a group that is among the members of the document. Missing: the same. -/
theorem C125_group_partial (hH : ∀ i, Function.Injective (E.hashCgka i)) {w w1 v' k : Keyhive} (hw : Fleet E w) {L : Local}
    (hL : L.Honest E) (hs : ∀ doc, GoodSigner (L.signCgka doc)) {gid : Id} {who : Agent} {can : Access} {content : Content} {dl : Dlg} {ops : List SOp}
    (hno : AMap.get w.docs gid = none) (h : w.addMemberToGroup E L gid who can content = (w1, .ok (dl, ops))) (hcan : can.isReader = true)
    (hone : OneKind w1.world who) (hS : ∀ i doc, AMap.get w1.docs i = some doc → Sound w1.world doc.group) (hb : Behind w1.world who me) {did : Id}
    {d : Doc} {c : Cgka} (hd : AMap.get w.docs did = some d) (hc : d.cgka = some c) (hcur : Current c) (hgr : Within w1.world d.group gid)
    (hout : c.tree.containsId me = false)
    {L' : Local} (hL' : L'.Honest E) (hs' : ∀ doc, GoodSigner (L'.signCgka doc)) {r ps x : Nat} {e : EncContent} {o : Option SOp}
    (he : w1.encryptContent E L' did r ps x = (v', .ok (e, o))) (hk : OnlyDevice E me k) {db : Doc} {b : Cgka}
    (hdb : AMap.get k.docs did = some db) (hcb : db.cgka = some b) (hme : b.ownerId = me) (h1 : ChangesApart b) (h2 : UpdatesInTurn b)
    (h3 : FreshKeys b) (h4 : DistinctKeys b) (hkn : ∀ op, HasKeyOp E v' did op → HasKeyOp E k did op)
    (hown : ∀ op, HasKeyOp E k did op → op.payload.GivesTo me → Places me op) :
    (∃ op, o = some op) ∧ ∃ key, (k.decryptContent E did e).2 = .ok (x, key) := by
  obtain ⟨d1, c1, a1, a2, a3⟩ := KeyTreeProps.C52_add_to_group_partial (fleet_reach hw) hno h hS hone hd hc hcur
  exact SpreadProps.C123_join_write_partial hH hw hL hs h hd hc hcur a1 a2 hout ((a3 me).2 (.inr ⟨hcan, hgr, hb⟩)) hL' hs' he hk hdb hcb hme h1 h2 h3
    h4 hkn hown

-- Agent 5 makes Alice a reader of the document and writes; Alice's device reads it.
open JoinSample HeldSample Verif.Keyhive.Sample FleetSample PlaceSample Verif.Cgka.CutOffProps.Example in
example : ∃ dl ops e o, alone.addMemberToDoc EF L 300 ⟨.individual, 1⟩ .read [] = (d2, .ok (dl, ops)) ∧
    d2.encryptContent EF L2 300 7 8 42 = (d3, .ok (e, some o)) ∧ ∃ key, (alice.decryptContent EF 300 e).2 = .ok (42, key) := by
  obtain ⟨d, f1, f2⟩ := doc_of alice_has
  obtain ⟨dm, f5, f6⟩ := doc_of alone_has
  obtain ⟨e, o, he⟩ := write_some (E := EF) (k := d2) (L := L2) (by decide +kernel)
  obtain ⟨dl, ops, hops⟩ : ∃ dl ops, alone.addMemberToDoc EF L 300 ⟨.individual, 1⟩ .read [] = (d2, .ok (dl, ops)) := by
    have h : isOk (alone.addMemberToDoc EF L 300 ⟨.individual, 1⟩ .read []).2 = true := by decide +kernel
    unfold d2 made alone at *
    cases hr : Keyhive.addMemberToDoc EF L (k0.generateDoc EF L sg 300 [] [1]).1 300 ⟨.individual, 1⟩ .read [] with
    | mk k' r =>
      rw [hr] at h
      cases r with
      | error err => cases h
      | ok p => exact ⟨p.1, p.2, rfl⟩
  have hown : ((treeOf alice 300).get alice_has).ownerId = 1 := by decide +kernel
  obtain ⟨⟨op, rfl⟩, key, hkey⟩ := C125_document_partial (me := 1) EF_inj alone_fleet (L_honest hcF) L_good hops rfl
    (neat_kind (by decide +kernel)) ⟨⟨.individual, 1⟩, .refl, rfl, rfl⟩ f5 f6 (by decide +kernel)
    (by decide +kernel) (L2_honest _) L2_good he alice_only f1 f2 hown (changes_of (by decide +kernel))
    (turns_of (by decide +kernel)) (fresh_of (by decide +kernel)) (distinct_of (by decide +kernel)) (all_of d3_has (by decide +kernel)) alice_places
  exact ⟨dl, ops, e, op, hops, he, key, hkey⟩

-- Agent 5 makes Alice a member of a group that may read the document and writes in it; Alice's device reads it.
open SpreadSample LostSample HeldSample Verif.Keyhive.Sample FleetSample PlaceSample Verif.Cgka.CutOffProps.Example in
example : ∃ dl ops e o, (club EF).addMemberToGroup EF L 200 ⟨.individual, 1⟩ .read [] = (clubbed EF, .ok (dl, ops)) ∧
    (clubbed EF).encryptContent EF L2 300 7 8 42 = (wrote, .ok (e, some o)) ∧ ∃ key, (alice.decryptContent EF 300 e).2 = .ok (42, key) := by
  obtain ⟨d, f1, f2⟩ := doc_of alice_has
  obtain ⟨dm, f5, f6⟩ := doc_of club_has
  obtain ⟨dg, f7, f8⟩ := doc_of clubbed_has
  obtain ⟨e, o, he⟩ := write_some (E := EF) (k := clubbed EF) (L := L2) (by decide +kernel)
  obtain ⟨dl, ops, hops⟩ : ∃ dl ops, (club EF).addMemberToGroup EF L 200 ⟨.individual, 1⟩ .read [] = (clubbed EF, .ok (dl, ops)) := by
    have h : isOk ((club EF).addMemberToGroup EF L 200 ⟨.individual, 1⟩ .read []).2 = true := by decide +kernel
    unfold clubbed
    cases hr : (club EF).addMemberToGroup EF L 200 ⟨.individual, 1⟩ .read [] with
    | mk k' r =>
      rw [hr] at h
      cases r with
      | error err => cases h
      | ok p => exact ⟨p.1, p.2, rfl⟩
  have hS : ∀ i doc, AMap.get (clubbed EF).docs i = some doc → Sound (clubbed EF).world doc.group :=
    fun _ _ h => neat_sound (fleet_reach (clubbed_fleet hcF)) (a := ⟨.individual, 1⟩) (by decide +kernel) h
  have hgrp : ((AMap.get (club EF).docs 300).map Doc.group) = (AMap.get (clubbed EF).docs 300).map Doc.group := by decide +kernel
  rw [f5, f7] at hgrp
  simp only [Option.map_some, Option.some.injEq] at hgrp
  have hin : Within (clubbed EF).world dm.group 200 := by
    rw [hgrp]
    exact (without_spec (k := clubbed EF) (did := 300) (gid := 200) (j := 77) (by decide +kernel) f7 (hS _ _ f7)).1
  have hown : ((treeOf alice 300).get alice_has).ownerId = 1 := by decide +kernel
  obtain ⟨⟨op, rfl⟩, key, hkey⟩ := C125_group_partial (me := 1) EF_inj (club_fleet hcF) (L_honest hcF) L_good (by decide +kernel) hops rfl
    (neat_kind (by decide +kernel)) hS ⟨⟨.individual, 1⟩, .refl, rfl, rfl⟩ f5 f6 (by decide +kernel) hin
    (by decide +kernel) (L2_honest _) L2_good he alice_only f1 f2 hown (changes_of (by decide +kernel))
    (turns_of (by decide +kernel)) (fresh_of (by decide +kernel)) (distinct_of (by decide +kernel)) (all_of wrote_has (by decide +kernel)) alice_places
  exact ⟨dl, ops, e, op, hops, he, key, hkey⟩

open GrantSample SpreadSample Verif.Keyhive.Sample Verif.Keyhive.FleetSample in
/-- The right to read given through a document comes without keys. Readers of document 400 are readers of document 300. Agent 5 makes Alice a reader
of document 400, and from then on counts Alice among the readers of document 300. Agent 5 then writes in document 300. Alice's device has all the
group-key operations of document 300 the writer has, and cannot read it. All devices run the library. -/
theorem C125_fails : ∃ (E : Env) (L L' : Local) (w w1 v' k : Keyhive) (dl : Dlg) (ops : List SOp) (d1 : Doc) (tm1 : AMap Id (Agent × Access))
    (e : EncContent) (o : Option SOp), (∀ i, Function.Injective (E.hashCgka i)) ∧ Fleet E w ∧ OnlyDevice E 1 k ∧
    w.addMemberToDoc E L 400 ⟨.individual, 1⟩ .read [] = (w1, .ok (dl, ops)) ∧
    AMap.get w1.docs 300 = some d1 ∧ transitiveMembers w1.world [300] d1.group = .ok tm1 ∧ AMap.get tm1 1 = some (⟨.individual, 1⟩, .read) ∧
    w1.encryptContent E L' 300 7 8 42 = (v', .ok (e, o)) ∧ (∀ op, HasKeyOp E v' 300 op → HasKeyOp E k 300 op) ∧
    ∀ res, (k.decryptContent E 300 e).2 ≠ .ok res := by
  have hrv : isOk (linked.addMemberToDoc EN L 400 ⟨.individual, 1⟩ .read []).2 = true := by decide +kernel
  have hm1 : (AMap.get linked'.docs 300).bind (fun d => (transitiveMembers linked'.world [300] d.group).toOption.map (fun tm => AMap.get tm 1)) =
      some (some (⟨.individual, 1⟩, .read)) := by decide +kernel
  have hread : ((linked'.encryptContent EN L2 300 7 8 42).2.toOption.map (fun p => (outsider.decryptContent EN 300 p.1).2.toOption.isNone)) =
      some true := by decide +kernel
  have hall : ∀ op, HasKeyOp EN linked'' 300 op → HasKeyOp EN outsider 300 op := all_of (by decide +kernel) (by decide +kernel)
  obtain ⟨d1, hd1, hm1⟩ := Option.bind_eq_some_iff.1 hm1
  obtain ⟨tm1, ht1, hm1⟩ := Option.map_eq_some_iff.1 hm1
  have ok_of : ∀ {α ε : Type} {x : Except ε α} {a : α}, x.toOption = some a → x = .ok a := by
    intro α ε x a h
    cases x with
    | error e => cases h
    | ok b => cases h; rfl
  obtain ⟨dl, ops, hops⟩ : ∃ dl ops, linked.addMemberToDoc EN L 400 ⟨.individual, 1⟩ .read [] = (linked', .ok (dl, ops)) := by
    unfold linked'
    cases hr : linked.addMemberToDoc EN L 400 ⟨.individual, 1⟩ .read [] with
    | mk k' r =>
      rw [hr] at hrv
      cases r with
      | error err => cases hrv
      | ok p => exact ⟨p.1, p.2, rfl⟩
  cases hw : linked'.encryptContent EN L2 300 7 8 42 with
  | mk v' r =>
    rw [hw] at hread
    have hv' : linked'' = v' := by unfold linked''; rw [hw]
    rw [hv'] at hall
    cases r with
    | error err => cases hread
    | ok p =>
      obtain ⟨e, o⟩ := p
      refine ⟨EN, L, L2, linked, linked', v', outsider, dl, ops, d1, tm1, e, o, EN_inj, linked_fleet, outsider_only, hops, hd1, ok_of ht1, hm1, hw, hall, ?_⟩
      intro res hr
      simp [Except.toOption, hr] at hread

end GrantProps

end Verif.Keyhive
