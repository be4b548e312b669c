import Verif.Keyhive.FleetLemmas
import Verif.Keyhive.PublicProps
import Verif.Keyhive.LocalSample
import Verif.Cgka.DeliveryProps

/-!
# Properties of devices that all run the library (C80, C111)

The vocabulary is in `Verif.Keyhive.FleetSpec`, `Verif.Cgka.Spec`, `Verif.Cgka.TrustSpec` and `Verif.Cgka.TogetherSpec`.
-/

namespace Verif.Keyhive

open Verif.Group Verif.Cgka Verif.BeeKem

variable {E : Env}

/-- What a successful write does to the key tree of the document. -/
theorem encrypt_tree {w w' : Keyhive} {L : Local} {did : Id} {r ps x : Nat} {e : EncContent} {o : Option SOp}
    (he : w.encryptContent E L did r ps x = (w', .ok (e, o))) : ∃ d a a' s, AMap.get w.docs did = some d ∧ d.cgka = some a ∧
      a.newAppSecretFor (E.hashCgka did) (L.signCgka did) L.gen 0 r ps = (a', .ok (s, o)) ∧ e = s.encrypt x ∧
      AMap.get w'.docs did = some { d with cgka := some a' } := by
  unfold Keyhive.encryptContent at he
  cases hd : AMap.get w.docs did with
  | none => rw [hd] at he; cases he
  | some d =>
    rw [hd] at he
    dsimp only at he
    cases hc : d.cgka with
    | none => unfold Doc.encryptContent at he; rw [hc] at he; cases he
    | some a =>
      cases hq : a.newAppSecretFor (E.hashCgka did) (L.signCgka did) L.gen 0 r ps with
      | mk a' res =>
        cases res with
        | error err => unfold Doc.encryptContent at he; rw [hc] at he; dsimp only at he; rw [hq] at he; cases he
        | ok p =>
          obtain ⟨s, op⟩ := p
          unfold Doc.encryptContent at he
          rw [hc] at he
          dsimp only at he
          rw [hq] at he
          cases he
          refine ⟨d, a, a', s, rfl, hc, hq, rfl, ?_⟩
          have := get_setDoc (d := { d with cgka := some a' }) hd did
          simpa using this

/-- Reading with a key from the tree. -/
theorem decrypt_with {k : Keyhive} {did : Id} {d : Doc} {b : Cgka} (hd : AMap.get k.docs did = some d) (hc : d.cgka = some b) {e : EncContent}
    {x : Nat} (h : ∃ key, (b.decryptionKeyFor (E.hashCgka did) e).2 = .ok key ∧ e.openWith key = some x) :
    ∃ key, (k.decryptContent E did e).2 = .ok (x, key) := by
  obtain ⟨key, e1, e2⟩ := h
  refine ⟨key, ?_⟩
  unfold Keyhive.decryptContent
  rw [hd]
  dsimp only
  unfold Doc.decryptContent
  rw [hc]
  dsimp only
  cases hq : b.decryptionKeyFor (E.hashCgka did) e with
  | mk c' r =>
    rw [hq] at e1
    dsimp only at e1
    subst e1
    dsimp only
    rw [e2]

/-- Having every recorded operation. -/
theorem known_of {k w : Keyhive} {did : Id} {d d' : Doc} {b a : Cgka} (hb : AMap.get k.docs did = some d) (hc : d.cgka = some b)
    (ha : AMap.get w.docs did = some d') (hc' : d'.cgka = some a) (sa : GInv (E.hashCgka did) a.graph)
    (h : ∀ op, HasKeyOp E w did op → HasKeyOp E k did op) : ∀ x, Knows a x → Knows b x := by
  intro x hx
  rw [knows_iff] at hx ⊢
  cases ho : AMap.get a.graph.ops x with
  | none => exact absurd ho hx
  | some o =>
    have hx' := sa.hash x o ho
    obtain ⟨d1, c1, f1, f2, f3⟩ := h o ⟨d', a, ha, hc', by rw [hx']; exact ho⟩
    rw [hb] at f1
    cases f1
    rw [hc] at f2
    cases f2
    rw [hx'] at f3
    rw [f3]
    simp

/-- The key tree of a writer that runs the library, before and after the write. -/
theorem fleet_write {w w' : Keyhive} {L : Local} {did : Id} {r ps x : Nat} {e : EncContent}
    {o : Option SOp} (hw : Fleet E w) (hL : L.Honest E) (hs : ∀ doc, GoodSigner (L.signCgka doc))
    (he : w.encryptContent E L did r ps x = (w', .ok (e, o))) : Fleet E w' := by
  have := Fleet.call (.encrypt L did r ps x) hw trivial hL hs
  have hr : (Call.encrypt L did r ps x).run E w = w' := by
    show (w.encryptContent E L did r ps x).1 = w'
    rw [he]
  rwa [hr] at this

namespace FleetSample

open Verif.Keyhive.Sample

/-- How agent 5 signs and draws keys when writing. -/
def L2 : Local := ⟨sg, fun _ p => .ok ⟨p, 5, 5901⟩, fun _ i _ => .ok ⟨11 * i⟩, fun n => 800 + n⟩

/-- The secrets agent 5 then sends. -/
def box1 : EncryptedSecret := { key := { lo := 55, hi := 800 }, plain := 801, pairedPk := ⟨55⟩ }
/-- To Alice and within the first half of the tree. -/
def box2 : EncryptedSecret := { key := { lo := 11, hi := 801 }, plain := 802, pairedPk := ⟨11⟩ }
/-- The update made when writing. -/
def t5 : SOp :=
  let low := { versions := [{ pk := ⟨801⟩, sk := [(.leaf 1, box1), (.leaf 0, box1)], encrypterPk := ⟨800⟩ }] }
  let top := { versions := [{ pk := ⟨802⟩, sk := [(.leaf 2, box2), (.inner 0, box2)], encrypterPk := ⟨801⟩ }] }
  let change := { leafId := 300, leafIdx := 0, leafPk := .share ⟨800⟩, path := [(0, low), (1, top)], removedKeys := [⟨700⟩, ⟨701⟩] }
  ⟨.update 300 change [3], 5, 5901⟩

/-- When it is the public individual that is made a reader. -/
def p3 : SOp := ⟨.add MemberId.pub ⟨0⟩ 2 [2] [1], 5, 5000⟩
/-- To the public individual and within the first half of the tree. -/
def box3 : EncryptedSecret := { key := { lo := 0, hi := 801 }, plain := 802, pairedPk := ⟨0⟩ }
/-- And the update then made. -/
def p5 : SOp :=
  let low := { versions := [{ pk := ⟨801⟩, sk := [(.leaf 1, box1), (.leaf 0, box1)], encrypterPk := ⟨800⟩ }] }
  let top := { versions := [{ pk := ⟨802⟩, sk := [(.leaf 2, box3), (.inner 0, box3)], encrypterPk := ⟨801⟩ }] }
  let change := { leafId := 300, leafIdx := 0, leafPk := .share ⟨800⟩, path := [(0, low), (1, top)], removedKeys := [⟨700⟩, ⟨701⟩] }
  ⟨.update 300 change [3], 5, 5901⟩

/-- The digest of the operations. -/
noncomputable def hcF : SOp → Nat := tableH [t0, t1, t2, t3, t5]
/-- In the public document. -/
noncomputable def hcP : SOp → Nat := tableH [t0, t1, t2, p3, p5]
/-- Digests and signatures. -/
noncomputable def EF : Env := env hcF
/-- For the public document. -/
noncomputable def EAny : Env := env hcP

/-- Agent 5 creates document 300 and makes somebody a reader. -/
def made (E : Env) (who : Id) : Keyhive :=
  ((k0.generateDoc E L sg 300 [] [1]).1.addMemberToDoc E L 300 ⟨.individual, who⟩ .read []).1
/-- Alice is a reader of the document. -/
noncomputable def d2 : Keyhive := made EF 1
/-- Agent 5 writes. -/
noncomputable def d3 : Keyhive := (d2.encryptContent EF L2 300 7 8 42).1
/-- Everybody is a reader of the document. -/
noncomputable def e2 : Keyhive := made EAny 0
/-- Agent 5 writes. -/
noncomputable def e3 : Keyhive := (e2.encryptContent EAny L2 300 7 8 42).1

/-- Alice's device knows the same people. -/
def regA : Prekey.Registry := ⟨1, 0, [card 0, card 5, card 1, card 2], []⟩
/-- The delegation it receives, then the group-key operations. -/
def mail (ops : List SOp) : List Event := .dlg ⟨300, 300005, 5, .admin, none, [], [(300, [1])]⟩ :: ops.map (.cgka 300 ·)
/-- Alice's device. -/
noncomputable def alice : Keyhive := feed EF (Keyhive.start regA [(⟨11⟩, 11)]) (mail [t0, t1, t2, t3, t5])
/-- Alice's device when everybody is a reader. -/
noncomputable def anyone : Keyhive := feed EAny (Keyhive.start regA [(⟨11⟩, 11)]) (mail [t0, t1, t2, p3, p5])

theorem EF_inj : ∀ i, Function.Injective (EF.hashCgka i) := fun _ => tableH_injective _
theorem EAny_inj : ∀ i, Function.Injective (EAny.hashCgka i) := fun _ => tableH_injective _

theorem L_honest (hc : SOp → Nat) : L.Honest (env hc) := ⟨sg_signs hc, fun _ _ _ h => by cases h; rfl⟩
theorem L2_honest (hc : SOp → Nat) : L2.Honest (env hc) := ⟨sg_signs hc, fun _ _ _ h => by cases h; rfl⟩
theorem L2_good (doc : Id) : GoodSigner (L2.signCgka doc) := fun _ => ⟨_, rfl, rfl⟩

theorem made_fleet (hc : SOp → Nat) (who : Id) : Fleet (env hc) (made (env hc) who) :=
  .call (.addToDoc L 300 ⟨.individual, who⟩ .read []) (.call (.newDoc L sg 300 [] [1])
    (.start reg [(⟨55⟩, 55)] rfl (Verif.Cgka.Sample.honest_one 55)) trivial ⟨sg_signs hc, L_honest hc⟩ L_good) trivial (L_honest hc) L_good
theorem d3_fleet : Fleet EF d3 := .call (.encrypt L2 300 7 8 42) (made_fleet hcF 1) trivial (L2_honest _) L2_good
theorem e3_fleet : Fleet EAny e3 := .call (.encrypt L2 300 7 8 42) (made_fleet hcP 0) trivial (L2_honest _) L2_good

theorem feed_fleet {w : Keyhive} (hw : Fleet E w) : ∀ {es : List Event} {k : Keyhive}, Fleet E k →
    (∀ did op, .cgka did op ∈ es → HasKeyOp E w did op ∧ PublicAsKnown op) → Fleet E (feed E k es)
  | [], _, h, _ => h
  | e :: es, _, h, he => feed_fleet hw (es := es)
      (.receive e h (fun _ _ => w) (fun _ _ => hw) (fun did op ho => he did op (by rw [ho]; exact List.mem_cons_self)))
      (fun did op ho => he did op (List.mem_cons_of_mem _ ho))

/-- The operations a device has recorded for a document. -/
def recorded (k : Keyhive) (did : Id) (x : Nat) : Option SOp := (treeOf k did).bind (fun c => AMap.get c.graph.ops x)

theorem has_of {k : Keyhive} {did : Id} {op : SOp} (h : recorded k did (E.hashCgka did op) = some op) : HasKeyOp E k did op := by
  unfold recorded treeOf at h
  cases hd : AMap.get k.docs did with
  | none => rw [hd] at h; cases h
  | some d =>
    cases hc : d.cgka with
    | none => rw [hd] at h; simp [hc] at h
    | some c => rw [hd] at h; simp only [Option.bind_some, hc] at h; exact ⟨d, c, hd, hc, h⟩

theorem doc_of {k : Keyhive} {did : Id} (h : (treeOf k did).isSome = true) :
    ∃ d, AMap.get k.docs did = some d ∧ d.cgka = some ((treeOf k did).get h) := by
  have h' : treeOf k did = some ((treeOf k did).get h) := by simp
  generalize (treeOf k did).get h = c at h'
  unfold treeOf at h'
  cases hd : AMap.get k.docs did with
  | none => rw [hd] at h'; cases h'
  | some d => rw [hd] at h'; exact ⟨d, rfl, h'⟩

/-- The operations recorded on one device are recorded on the other. -/
theorem all_of {k w : Keyhive} {did : Id} (ha : (treeOf w did).isSome = true)
    (h : ∀ p ∈ ((treeOf w did).get ha).graph.ops, recorded k did p.1 = some p.2) (op : SOp) (ho : HasKeyOp E w did op) : HasKeyOp E k did op := by
  obtain ⟨d', e3, e4⟩ := doc_of ha
  obtain ⟨d, c, f1, f2, f3⟩ := ho
  rw [e3] at f1
  cases f1
  rw [e4] at f2
  cases f2
  exact has_of (h _ (AMap.mem_of_get f3))

theorem mail_fleet {w : Keyhive} (hw : Fleet E w) (ops : List SOp) (h : ∀ op ∈ ops, recorded w 300 (E.hashCgka 300 op) = some op)
    (hp : ∀ op ∈ ops, PublicAsKnown op) : Fleet E (feed E (Keyhive.start regA [(⟨11⟩, 11)]) (mail ops)) := by
  refine feed_fleet hw (.start regA [(⟨11⟩, 11)] rfl (Verif.Cgka.Sample.honest_one 11)) ?_
  intro did op ho
  have : did = 300 ∧ op ∈ ops := by
    simp only [mail, List.mem_cons, reduceCtorEq, false_or, List.mem_map, Event.cgka.injEq] at ho
    obtain ⟨o, ho, rfl, rfl⟩ := ho
    exact ⟨rfl, ho⟩
  obtain ⟨rfl, ho'⟩ := this
  exact ⟨has_of (h op ho'), hp op ho'⟩

theorem alice_fleet : Fleet EF alice := by
  refine mail_fleet d3_fleet _ (by decide +kernel) ?_
  intro op ho pk i ps as he
  simp only [List.mem_cons, List.not_mem_nil, or_false] at ho
  rcases ho with rfl | rfl | rfl | rfl | rfl <;> cases he

theorem anyone_fleet : Fleet EAny anyone := by
  refine mail_fleet e3_fleet _ (by decide +kernel) ?_
  intro op ho pk i ps as he
  simp only [List.mem_cons, List.not_mem_nil, or_false] at ho
  rcases ho with rfl | rfl | rfl | rfl | rfl <;> cases he
  rfl

/-- Agent 5's write succeeds and makes an update. -/
theorem write_ok {k : Keyhive} {t : SOp} (h : ((k.encryptContent E L2 300 7 8 42).2.toOption.bind (fun p => p.2)) = some t) :
    ∃ e, k.encryptContent E L2 300 7 8 42 = ((k.encryptContent E L2 300 7 8 42).1, .ok (e, some t)) := by
  cases hq : k.encryptContent E L2 300 7 8 42 with
  | mk k' r =>
    rw [hq] at h
    cases r with
    | error err => cases h
    | ok p => obtain ⟨e, o⟩ := p; cases h; exact ⟨e, rfl⟩

theorem alice_has : (treeOf alice 300).isSome = true := by decide +kernel
theorem anyone_has : (treeOf anyone 300).isSome = true := by decide +kernel
theorem d3_has : (treeOf d3 300).isSome = true := by decide +kernel
theorem e3_has : (treeOf e3 300).isSome = true := by decide +kernel

end FleetSample

namespace FleetProps

/-- C80, between devices: when all devices run the library (`Fleet`), whatever one of them writes in a document can be read by every
device that has received the group-key operations the writer had, and whose owner holds the secret of its own leaf in the writer's key tree.
Members are added and removed while nobody does anything else, nobody updates twice at the same time, and node keys are not drawn twice. The
write must have made an update, as it does whenever the group's secret is not settled (otherwise see `C80_header`).
Missing: additions and removals at the same time as other operations. -/
theorem C80_devices_partial (hH : ∀ i, Function.Injective (E.hashCgka i)) {k w w' : Keyhive} (hk : Fleet E k) (hw : Fleet E w) {L : Local}
    (hL : L.Honest E) (hs : ∀ doc, GoodSigner (L.signCgka doc)) {did : Id} {r ps x : Nat} {e : EncContent} {o : SOp}
    (he : w.encryptContent E L did r ps x = (w', .ok (e, some o))) {d d' : Doc} {b a : Cgka} (hd : AMap.get k.docs did = some d)
    (hc : d.cgka = some b) (hd' : AMap.get w'.docs did = some d') (hc' : d'.cgka = some a) (h1 : ChangesApart b) (h2 : UpdatesInTurn b)
    (h3 : FreshKeys b) (hkn : ∀ op, HasKeyOp E w' did op → HasKeyOp E k did op) (hm : HoldsLeaf a.tree b.ownerId b.ownerSks) :
    ∃ key, (k.decryptContent E did e).2 = .ok (x, key) := by
  obtain ⟨d0, a0, a', s, f1, f2, f3, f4, f5⟩ := encrypt_tree he
  rw [f5] at hd'
  cases hd'
  cases hc'
  have ta' := fleet_trusted hH (fleet_write hw hL hs he) f5 rfl
  have sa := (reachOk_inv (hH did) (trusted_ok ta')).graph
  refine decrypt_with hd hc ?_
  rw [f4]
  exact Verif.Cgka.TogetherProps.C80_content_with_concurrent_updates_partial (hH did) (fleet_trusted hH hw f1 f2) (fleet_trusted hH hk hd hc)
    (hs did) f3 h1 h2 h3 (known_of hd hc f5 rfl sa hkn) (Verif.Cgka.DeliveryProps.C80_header f3).2 hm x

-- Agent 5 creates a document, makes Alice a reader and writes; Alice's device has received all of it.
open FleetSample Verif.Keyhive.Sample in
example : (∀ i, Function.Injective (EF.hashCgka i)) ∧ Fleet EF alice ∧ Fleet EF d2 ∧ L2.Honest EF ∧ (∀ doc, GoodSigner (L2.signCgka doc)) ∧
    (∃ e, d2.encryptContent EF L2 300 7 8 42 = (d3, .ok (e, some t5))) ∧
    (∃ d b d' a, AMap.get alice.docs 300 = some d ∧ d.cgka = some b ∧ AMap.get d3.docs 300 = some d' ∧ d'.cgka = some a ∧
      ChangesApart b ∧ UpdatesInTurn b ∧ FreshKeys b ∧ HoldsLeaf a.tree b.ownerId b.ownerSks ∧ b.ownerId = 1) ∧
    (∀ op, HasKeyOp EF d3 300 op → HasKeyOp EF alice 300 op) := by
  obtain ⟨d, e1, e2⟩ := doc_of alice_has
  obtain ⟨d', e3, e4⟩ := doc_of d3_has
  exact ⟨EF_inj, alice_fleet, made_fleet hcF 1, L2_honest _, L2_good, write_ok (by decide +kernel),
    ⟨d, _, d', _, e1, e2, e3, e4, changes_of (by decide +kernel), turns_of (by decide +kernel), fresh_of (by decide +kernel),
      ⟨⟨11⟩, 11, by decide +kernel, by decide +kernel⟩, by decide +kernel⟩, all_of d3_has (by decide +kernel)⟩

/-- C111, between devices: when all devices run the library, whatever one of them writes in a document that has the public individual, with its
well-known key, among the members of its group can be read by every device that has received the group-key operations the writer had, member or
not, under the conditions of C80. -/
theorem C111_devices_partial (hH : ∀ i, Function.Injective (E.hashCgka i)) {k w w' : Keyhive} (hk : Fleet E k) (hw : Fleet E w) {L : Local}
    (hL : L.Honest E) (hs : ∀ doc, GoodSigner (L.signCgka doc)) {did : Id} {r ps x : Nat} {e : EncContent} {o : SOp}
    (he : w.encryptContent E L did r ps x = (w', .ok (e, some o))) {d d' : Doc} {b a : Cgka} (hd : AMap.get k.docs did = some d)
    (hc : d.cgka = some b) (hd' : AMap.get w'.docs did = some d') (hc' : d'.cgka = some a) (h1 : ChangesApart b) (h2 : UpdatesInTurn b)
    (h3 : FreshKeys b) (hkn : ∀ op, HasKeyOp E w' did op → HasKeyOp E k did op)
    (hm : a.tree.nodeKeyForId MemberId.pub = .ok (.share (shareKey publicSk))) : ∃ key, (k.decryptContent E did e).2 = .ok (x, key) := by
  obtain ⟨d0, a0, a', s, f1, f2, f3, f4, f5⟩ := encrypt_tree he
  rw [f5] at hd'
  cases hd'
  cases hc'
  have ta' := fleet_trusted hH (fleet_write hw hL hs he) f5 rfl
  have sa := (reachOk_inv (hH did) (trusted_ok ta')).graph
  rw [f4]
  exact PublicProps.C111_public_document_partial (fleet_reach hk) (hH did) hd hc (fleet_trusted hH hk hd hc) (fleet_trusted hH hw f1 f2)
    (hs did) f3 h1 h2 h3 (known_of hd hc f5 rfl sa hkn) (Verif.Cgka.DeliveryProps.C80_header f3).2 hm x

-- Agent 5 creates a document, makes everybody a reader and writes; Alice, who is not a member, has received all of it.
open FleetSample Verif.Keyhive.Sample in
example : (∀ i, Function.Injective (EAny.hashCgka i)) ∧ Fleet EAny anyone ∧ Fleet EAny e2 ∧ L2.Honest EAny ∧ (∀ doc, GoodSigner (L2.signCgka doc)) ∧
    (∃ e, e2.encryptContent EAny L2 300 7 8 42 = (e3, .ok (e, some p5))) ∧
    (∃ d b d' a, AMap.get anyone.docs 300 = some d ∧ d.cgka = some b ∧ AMap.get e3.docs 300 = some d' ∧ d'.cgka = some a ∧
      ChangesApart b ∧ UpdatesInTurn b ∧ FreshKeys b ∧ a.tree.nodeKeyForId MemberId.pub = .ok (.share (shareKey publicSk)) ∧
      b.ownerId = 1 ∧ b.tree.containsId 1 = false) ∧
    (∀ op, HasKeyOp EAny e3 300 op → HasKeyOp EAny anyone 300 op) := by
  obtain ⟨d, f1, f2⟩ := doc_of anyone_has
  obtain ⟨d', f3, f4⟩ := doc_of e3_has
  exact ⟨EAny_inj, anyone_fleet, made_fleet hcP 0, L2_honest _, L2_good, write_ok (by decide +kernel),
    ⟨d, _, d', _, f1, f2, f3, f4, changes_of (by decide +kernel), turns_of (by decide +kernel), fresh_of (by decide +kernel),
      by decide +kernel, by decide +kernel, by decide +kernel⟩, all_of e3_has (by decide +kernel)⟩

end FleetProps

end Verif.Keyhive
