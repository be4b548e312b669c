import Verif.Keyhive.JoinLemmas
import Verif.Keyhive.ShutProps

/-!
# Adding somebody to a document lets them read what is written afterwards (C122)

The vocabulary is in `Verif.Keyhive.{PlaceSpec, FleetSpec}` and `Verif.Cgka.TogetherSpec`.
-/

namespace Verif.Keyhive

open Verif.Group Verif.Cgka Verif.BeeKem

variable {E : Env} {me : Id}

namespace JoinSample

open Verif.Keyhive.Sample FleetSample HeldSample ShutSample

/-- Bob's own leaf, in Bob's update. -/
def jbox1 : EncryptedSecret := { key := { lo := 900, hi := 902 }, plain := 901, pairedPk := ⟨902⟩ }
/-- For the first half of the tree. -/
def jbox2 : EncryptedSecret := { key := { lo := 701, hi := 901 }, plain := 903, pairedPk := ⟨701⟩ }
/-- The update Bob makes when writing without having received the group-key operation that adds Alice. -/
def j5 : SOp :=
  let low := { versions := [{ pk := ⟨901⟩, sk := [(.leaf 2, jbox1)], encrypterPk := ⟨900⟩ }] }
  let top := { versions := [{ pk := ⟨903⟩, sk := [(.inner 0, jbox2), (.inner 2, jbox2)], encrypterPk := ⟨901⟩ }] }
  let change := { leafId := 2, leafIdx := 2, leafPk := .share ⟨900⟩, path := [(2, low), (1, top)], removedKeys := [⟨22⟩] }
  ⟨.update 2 change [3], 2, 2900⟩

/-- The digest of the operations. -/
noncomputable def hcJ : SOp → Nat := tableH [t0, t1, t2, b3, b4, j5]
/-- Digests and signatures. -/
noncomputable def EJ : Env := env hcJ
theorem EJ_inj : ∀ i, Function.Injective (EJ.hashCgka i) := fun _ => tableH_injective _

/-- Agent 5's device: Bob is an admin of document 300. -/
noncomputable def host : Keyhive := ((k0.generateDoc EJ L sg 300 [] [1]).1.addMemberToDoc EJ L 300 ⟨.individual, 2⟩ .admin []).1
theorem host_fleet : Fleet EJ host :=
  .call (.addToDoc L 300 ⟨.individual, 2⟩ .admin []) (.call (.newDoc L sg 300 [] [1])
    (.start reg [(⟨55⟩, 55)] rfl (Verif.Cgka.Sample.honest_one 55)) trivial ⟨sg_signs hcJ, L_honest hcJ⟩ L_good) trivial (L_honest hcJ) L_good
/-- And makes Alice a reader. -/
noncomputable def host' : Keyhive := (host.addMemberToDoc EJ L 300 ⟨.individual, 1⟩ .read []).1
theorem host'_fleet : Fleet EJ host' := .call (.addToDoc L 300 ⟨.individual, 1⟩ .read []) host_fleet trivial (L_honest hcJ) L_good

/-- Bob's device has received that Alice is a reader, but not the group-key operation made with it. -/
noncomputable def late : Keyhive := feed EJ (Keyhive.start regB [(⟨22⟩, 22)]) (post [t0, t1, t2, b3] [])
/-- Bob writes. -/
noncomputable def late' : Keyhive := (late.encryptContent EJ LB 300 7 8 42).1
/-- Alice's device, with everything. -/
noncomputable def guest : Keyhive := feed EJ (Keyhive.start regA [(⟨11⟩, 11)]) (post [t0, t1, t2, b3, b4, j5] [])

theorem late_fleet : Fleet EJ late := by
  refine feed_fleet host_fleet (.start regB [(⟨22⟩, 22)] rfl (Verif.Cgka.Sample.honest_one 22)) ?_
  have h : ∀ op ∈ [t0, t1, t2, b3], recorded host 300 (EJ.hashCgka 300 op) = some op := by decide +kernel
  intro did op ho
  rcases post_cgka ho with ⟨rfl, h1⟩ | h1
  · refine ⟨has_of (h op h1), ?_⟩
    intro pk i ps as he
    simp only [List.mem_cons, List.not_mem_nil, or_false] at h1
    rcases h1 with rfl | rfl | rfl | rfl <;> cases he
  · simp at h1

theorem late'_fleet : Fleet EJ late' := .call (.encrypt LB 300 7 8 42) late_fleet trivial (LB_honest _) LB_good

/-- As `feed_fleet2`, for the only device of an agent. -/
theorem feed_only2 {w w' : Keyhive} (hw : Fleet E w) (hw' : Fleet E w') : ∀ {es : List Event} {k : Keyhive}, OnlyDevice E me k →
    (∀ did op, .cgka did op ∈ es → (HasKeyOp E w did op ∨ HasKeyOp E w' did op) ∧ PublicAsKnown op ∧ op.issuer ≠ me) → OnlyDevice E me (feed E k es)
  | [], _, h, _ => h
  | e :: es, _, h, he => by
    classical
    exact feed_only2 hw hw' (es := es)
      (.receive e h (fun did op => if HasKeyOp E w did op then w else w') (fun did op => by split <;> assumption) (fun did op ho => by
        obtain ⟨h1, h2, _⟩ := he did op (by rw [ho]; exact List.mem_cons_self)
        refine ⟨?_, h2⟩
        split
        · assumption
        · rename_i hn; exact h1.resolve_left hn)
        (fun did op ho hi => absurd hi (he did op (by rw [ho]; exact List.mem_cons_self)).2.2))
      (fun did op ho => he did op (List.mem_cons_of_mem _ ho))

theorem guest_only : OnlyDevice EJ 1 guest := by
  refine feed_only2 host'_fleet late'_fleet (.start regA [(⟨11⟩, 11)] rfl (Verif.Cgka.Sample.honest_one 11) rfl) ?_
  have h : ∀ op ∈ [t0, t1, t2, b3, b4, j5], recorded host' 300 (EJ.hashCgka 300 op) = some op ∨ recorded late' 300 (EJ.hashCgka 300 op) = some op := by
    decide +kernel
  have h' : ∀ op ∈ [t0, t1, t2, b3, b4, j5], op.issuer ≠ 1 := by decide
  intro did op ho
  rcases post_cgka ho with ⟨rfl, h1⟩ | h1
  · refine ⟨(h op h1).imp has_of has_of, ?_, h' op h1⟩
    intro pk i ps as he
    simp only [List.mem_cons, List.not_mem_nil, or_false] at h1
    rcases h1 with rfl | rfl | rfl | rfl | rfl | rfl <;> cases he
  · simp at h1

/-- Agent 5 has created the document. -/
noncomputable def alone : Keyhive := (k0.generateDoc EF L sg 300 [] [1]).1
theorem alone_fleet : Fleet EF alone :=
  .call (.newDoc L sg 300 [] [1]) (.start reg [(⟨55⟩, 55)] rfl (Verif.Cgka.Sample.honest_one 55)) trivial ⟨sg_signs hcF, L_honest hcF⟩ L_good

theorem alone_has : (treeOf alone 300).isSome = true := by decide +kernel
theorem d2_has : (treeOf d2 300).isSome = true := by decide +kernel

end JoinSample

namespace JoinProps

/-- **C122**, the operations. The device `w` adds a member to a document, with nothing waiting to be replayed. Then for each individual the key
group gains, the operations handed back for sending contain an addition of the individual. The device has recorded it, and everything the device
had recorded before comes before it. Missing: operations waiting (`C74_fails_for_add`). -/
theorem C122_addition_partial (hH : ∀ i, Function.Injective (E.hashCgka i)) {w w1 : Keyhive} (hw : Fleet E w) {L : Local}
    (hs : ∀ doc, GoodSigner (L.signCgka doc)) {did : Id} {who : Agent} {can : Access} {content : Content} {dl : Dlg} {ops : List SOp}
    (h : w.addMemberToDoc E L did who can content = (w1, .ok (dl, ops))) {d d1 : Doc} {c c1 : Cgka} (hd : AMap.get w.docs did = some d)
    (hc : d.cgka = some c) (hcur : Current c) (hd1 : AMap.get w1.docs did = some d1) (hc1 : d1.cgka = some c1) {id : MemberId}
    (hout : c.tree.containsId id = false) (hin : c1.tree.containsId id = true) :
    ∃ op pk i qs as, op ∈ ops ∧ op.payload = .add id pk i qs as ∧ HasKeyOp E w1 did op ∧
      ∀ op', HasKeyOp E w did op' → Before c1 (E.hashCgka did op') (E.hashCgka did op) := by
  obtain ⟨-, -, -, h4⟩ := join_makes hH hw hs hd hc hcur h hd1 hc1
  obtain ⟨op, pk, i, qs, as, e1, e2, e3, e4⟩ := h4 id hout hin
  refine ⟨op, pk, i, qs, as, e1, e2, ⟨d1, c1, hd1, hc1, e3⟩, ?_⟩
  rintro op' ⟨d', c', f1, f2, f3⟩
  rw [hd] at f1
  cases f1
  rw [hc] at f2
  cases f2
  exact e4 _ ⟨op', f3⟩

/-- **C122**. The device `w` adds a member to a document, the key group gains individual `me` (for whom it gains see C52), and `w` writes. Then the
write makes a key update, and the device of `me`, once it has the group-key operations the writer has, reads what was written. All devices run
the library; for the conditions on the history see C80, and on how `me` got a place in the group C113.
Missing: operations concurrent with an addition or a removal, and operations waiting at the addition. -/
theorem C122_next_write_partial (hH : ∀ i, Function.Injective (E.hashCgka i)) {w w1 v' k : Keyhive} (hw : Fleet E w) {L : Local}
    (hL : L.Honest E) (hs : ∀ doc, GoodSigner (L.signCgka doc)) {did : Id} {who : Agent} {can : Access} {content : Content} {dl : Dlg} {ops : List SOp}
    (h : w.addMemberToDoc E L did who can content = (w1, .ok (dl, ops))) {d d1 : Doc} {c c1 : Cgka} (hd : AMap.get w.docs did = some d)
    (hc : d.cgka = some c) (hcur : Current c) (hd1 : AMap.get w1.docs did = some d1) (hc1 : d1.cgka = some c1)
    (hout : c.tree.containsId me = false) (hin : c1.tree.containsId me = true)
    {L' : Local} (hL' : L'.Honest E) (hs' : ∀ doc, GoodSigner (L'.signCgka doc)) {r ps x : Nat} {e : EncContent} {o : Option SOp}
    (he : w1.encryptContent E L' did r ps x = (v', .ok (e, o))) (hk : OnlyDevice E me k) {db : Doc} {b : Cgka}
    (hdb : AMap.get k.docs did = some db) (hcb : db.cgka = some b) (hme : b.ownerId = me) (h1 : ChangesApart b) (h2 : UpdatesInTurn b)
    (h3 : FreshKeys b) (h4 : DistinctKeys b) (hkn : ∀ op, HasKeyOp E v' did op → HasKeyOp E k did op)
    (hown : ∀ op, HasKeyOp E k did op → op.payload.GivesTo me → Places me op) :
    (∃ op, o = some op) ∧ ∃ key, (k.decryptContent E did e).2 = .ok (x, key) := by
  have hw1 : Fleet E w1 := by
    have := Fleet.call (.addToDoc L did who can content) hw trivial hL hs
    have hr : (Call.addToDoc L did who can content).run E w = w1 := by
      show (w.addMemberToDoc E L did who can content).1 = w1
      rw [h]
    rwa [hr] at this
  obtain ⟨m1, -, m3, m4⟩ := join_makes hH hw hs hd hc hcur h hd1 hc1
  obtain ⟨oa, pk, i, qs, as, -, e2, e3, e4⟩ := m4 me hout hin
  obtain ⟨d0, a0, a', s, f1, f2, f3, -, f5⟩ := encrypt_tree he
  rw [hd1] at f1
  cases f1
  rw [hc1] at f2
  cases f2
  obtain ⟨⟨op, rfl⟩, g2⟩ := encrypt_after (hH did) (fleet_trusted hH hw1 hd1 hc1) m1 e3 (fun z o' hz hn => by
    rcases m3 z o' hz with h' | h'
    · exact e4 z ⟨o', h'⟩
    · exact absurd h' hn) (by rw [e2]; rfl) f3
  refine ⟨⟨op, rfl⟩, ?_⟩
  subst hme
  exact PlaceProps.C113_reads_partial hH hk hw1 hL' hs' he hdb hcb f5 rfl h1 h2 h3 h4 hkn (by rw [g2]; exact hin) hown

-- Agent 5 makes Alice a reader and writes; Alice's device reads it.
open JoinSample HeldSample Verif.Keyhive.Sample FleetSample PlaceSample Verif.Cgka.CutOffProps.Example in
example : ∃ dl ops e o, alone.addMemberToDoc EF L 300 ⟨.individual, 1⟩ .read [] = (d2, .ok (dl, ops)) ∧
    d2.encryptContent EF L2 300 7 8 42 = (d3, .ok (e, some o)) ∧ ∃ key, (alice.decryptContent EF 300 e).2 = .ok (42, key) := by
  obtain ⟨d, f1, f2⟩ := doc_of alice_has
  obtain ⟨dm, f5, f6⟩ := doc_of alone_has
  obtain ⟨dg, f7, f8⟩ := doc_of d2_has
  obtain ⟨e, o, he⟩ := write_some (E := EF) (k := d2) (L := L2) (by decide +kernel)
  obtain ⟨dl, ops, hops⟩ : ∃ dl ops, alone.addMemberToDoc EF L 300 ⟨.individual, 1⟩ .read [] = (d2, .ok (dl, ops)) := by
    have h : isOk (alone.addMemberToDoc EF L 300 ⟨.individual, 1⟩ .read []).2 = true := by decide +kernel
    show ∃ dl ops, alone.addMemberToDoc EF L 300 ⟨.individual, 1⟩ .read [] = ((alone.addMemberToDoc EF L 300 ⟨.individual, 1⟩ .read []).1, .ok (dl, ops))
    cases hr : alone.addMemberToDoc EF L 300 ⟨.individual, 1⟩ .read [] with
    | mk k' r =>
      rw [hr] at h
      cases r with
      | error err => cases h
      | ok p => exact ⟨p.1, p.2, rfl⟩
  have hown : ((treeOf alice 300).get alice_has).ownerId = 1 := by decide +kernel
  obtain ⟨⟨op, rfl⟩, key, hkey⟩ := C122_next_write_partial (me := 1) EF_inj alone_fleet (L_honest hcF) L_good hops f5 f6 (by decide +kernel) f7 f8
    (by decide +kernel) (by decide +kernel) (L2_honest _) L2_good he alice_only f1 f2 hown (changes_of (by decide +kernel))
    (turns_of (by decide +kernel)) (fresh_of (by decide +kernel)) (distinct_of (by decide +kernel)) (all_of d3_has (by decide +kernel)) alice_places
  exact ⟨dl, ops, e, op, hops, he, key, hkey⟩

open JoinSample ShutSample HeldSample Verif.Keyhive.Sample FleetSample in
/-- The writer needs the group-key operations. Agent 5 makes Alice a reader of the document. Bob's device has received the delegation and counts
Alice as a member, but has not received the group-key operation made with it. What Bob writes, Alice's device cannot read, although it has all
operations. All devices run the library. -/
theorem C122_fails : ∃ (E : Env) (L L' : Local) (w w1 v v' k : Keyhive) (dl : Dlg) (ops : List SOp) (e : EncContent) (o : Option SOp),
    (∀ i, Function.Injective (E.hashCgka i)) ∧ Fleet E w ∧ Fleet E v ∧ OnlyDevice E 1 k ∧
    w.addMemberToDoc E L 300 ⟨.individual, 1⟩ .read [] = (w1, .ok (dl, ops)) ∧
    (∃ d ds, AMap.get v.docs 300 = some d ∧ AMap.get d.group.members 1 = some ds ∧ ∃ d' ∈ ds, E.sdlg d' = E.sdlg dl) ∧
    v.encryptContent E L' 300 7 8 42 = (v', .ok (e, o)) ∧ ops ≠ [] ∧ (∀ op ∈ ops, ¬ HasKeyOp E v' 300 op ∧ HasKeyOp E k 300 op) ∧
    (∀ op, HasKeyOp E v' 300 op → HasKeyOp E k 300 op) ∧ ∀ res, (k.decryptContent E 300 e).2 ≠ .ok res := by
  have hadd : ((host.addMemberToDoc EJ L 300 ⟨.individual, 1⟩ .read []).2.toOption.map (fun p => (EJ.sdlg p.1, p.2))) = some (forAlice, [b4]) := by
    decide +kernel
  have hmem : (AMap.get late.docs 300).bind (fun d => (AMap.get d.group.members 1).map (fun ds => ds.map EJ.sdlg)) = some [forAlice] := by decide +kernel
  have hread : ((late.encryptContent EJ LB 300 7 8 42).2.toOption.map (fun p => (guest.decryptContent EJ 300 p.1).2.toOption.isNone)) = some true := by
    decide +kernel
  have hno : recorded late' 300 (EJ.hashCgka 300 b4) = none := by decide +kernel
  have hyes : recorded guest 300 (EJ.hashCgka 300 b4) = some b4 := by decide +kernel
  have hall : ∀ op, HasKeyOp EJ late' 300 op → HasKeyOp EJ guest 300 op := all_of (by decide +kernel) (by decide +kernel)
  cases hw : late.encryptContent EJ LB 300 7 8 42 with
  | mk v' r =>
    rw [hw] at hread
    have hv' : late' = v' := by unfold late'; rw [hw]
    rw [hv'] at hno hall
    cases r with
    | error err => cases hread
    | ok p =>
      obtain ⟨e, o⟩ := p
      cases hq : host.addMemberToDoc EJ L 300 ⟨.individual, 1⟩ .read [] with
      | mk w1 r =>
        rw [hq] at hadd
        cases r with
        | error err => cases hadd
        | ok q =>
          obtain ⟨dl, ops⟩ := q
          simp only [Except.toOption, Option.map_some, Option.some.injEq, Prod.mk.injEq] at hadd
          obtain ⟨ha, rfl⟩ := hadd
          refine ⟨EJ, L, LB, host, w1, late, v', guest, dl, [b4], e, o, EJ_inj, host_fleet, late_fleet, guest_only, hq, ?_, hw, by simp, ?_, hall, ?_⟩
          · cases hd : AMap.get late.docs 300 with
            | none => rw [hd] at hmem; cases hmem
            | some d =>
              rw [hd] at hmem
              cases hm : AMap.get d.group.members 1 with
              | none => simp [hm] at hmem
              | some ds =>
                simp only [Option.bind_some, hm, Option.map_some, Option.some.injEq] at hmem
                have : forAlice ∈ ds.map EJ.sdlg := by rw [hmem]; simp
                obtain ⟨d', h1, h2⟩ := List.mem_map.1 this
                exact ⟨d, ds, rfl, hm, d', h1, by rw [h2, ha]⟩
          · intro op hop
            simp only [List.mem_singleton] at hop
            subst hop
            exact ⟨not_recorded hno, has_of hyes⟩
          · intro res hr
            simp [Except.toOption, hr] at hread

end JoinProps

end Verif.Keyhive
