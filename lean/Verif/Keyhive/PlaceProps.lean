import Verif.Keyhive.PlaceLemmas
import Verif.Keyhive.FleetProps
import Verif.Cgka.CutOffProps

/-! # Keeping one's place: a member's device reads what is written (C113) -/

namespace Verif.Keyhive

open Verif.Group Verif.Cgka Verif.BeeKem

variable {E : Env} {me : Id}

namespace PlaceSample

open Verif.Keyhive.Sample FleetSample

theorem feed_only {w : Keyhive} (hw : Fleet E w) : ∀ {es : List Event} {k : Keyhive}, OnlyDevice E me k →
    (∀ did op, .cgka did op ∈ es → HasKeyOp E w did op ∧ PublicAsKnown op ∧ op.issuer ≠ me) → OnlyDevice E me (feed E k es)
  | [], _, h, _ => h
  | e :: es, _, h, he => feed_only hw (es := es)
      (.receive e h (fun _ _ => w) (fun _ _ => hw)
        (fun did op ho => ⟨(he did op (by rw [ho]; exact List.mem_cons_self)).1, (he did op (by rw [ho]; exact List.mem_cons_self)).2.1⟩)
        (fun did op ho hi => absurd hi (he did op (by rw [ho]; exact List.mem_cons_self)).2.2))
      (fun did op ho => he did op (List.mem_cons_of_mem _ ho))

theorem mail_only {w k : Keyhive} (hw : Fleet E w) (hk : OnlyDevice E me k) (pre : List Event) (hpre : ∀ did op, .cgka did op ∉ pre)
    (ops : List SOp) (h : ∀ op ∈ ops, recorded w 300 (E.hashCgka 300 op) = some op)
    (hp : ∀ op ∈ ops, PublicAsKnown op) (hi : ∀ op ∈ ops, op.issuer ≠ me) : OnlyDevice E me (feed E k (pre ++ ops.map (.cgka 300 ·))) := by
  refine feed_only hw hk ?_
  intro did op ho
  have : did = 300 ∧ op ∈ ops := by
    rcases List.mem_append.1 ho with ho | ho
    · exact absurd ho (hpre _ _)
    · simp only [List.mem_map, Event.cgka.injEq] at ho
      obtain ⟨o, hm, rfl, rfl⟩ := ho
      exact ⟨rfl, hm⟩
  obtain ⟨rfl, ho'⟩ := this
  exact ⟨has_of (h op ho'), hp op ho', hi op ho'⟩

theorem alice_only : OnlyDevice EF 1 alice := by
  refine mail_only d3_fleet (.start regA [(⟨11⟩, 11)] rfl (Verif.Cgka.Sample.honest_one 11) rfl)
    [.dlg ⟨300, 300005, 5, .admin, none, [], [(300, [1])]⟩] (by intro _ _ h; simp at h) _ (by decide +kernel) ?_ (by decide)
  intro op ho pk i ps as he
  simp only [List.mem_cons, List.not_mem_nil, or_false] at ho
  rcases ho with rfl | rfl | rfl | rfl | rfl <;> cases he

/-! Alice creates document 300 together with agent 5. -/

/-- How Alice signs and draws keys. -/
def LC : Local := ⟨sg, fun _ p => .ok ⟨p, 1, match p with | .add i _ _ _ _ => 1000 + i | .remove i _ _ _ => 1500 + i | .update _ _ _ => 1900⟩,
  fun _ i _ => .ok ⟨11 * i⟩, fun n => 900 + n⟩
/-- The document starts a key tree. -/
def q0 : SOp := ⟨.add 300 ⟨900⟩ 0 [] [], 1, 1300⟩
/-- Agent 5 joins it. -/
def q1 : SOp := ⟨.add 5 ⟨55⟩ 1 [0] [0], 1, 1005⟩
/-- And Alice. -/
def q2 : SOp := ⟨.add 1 ⟨11⟩ 2 [1] [1], 1, 1001⟩
/-- The secret for agent 5. -/
def qbox1 : EncryptedSecret := { key := { lo := 55, hi := 900 }, plain := 901, pairedPk := ⟨55⟩ }
/-- And for Alice. -/
def qbox2 : EncryptedSecret := { key := { lo := 11, hi := 901 }, plain := 902, pairedPk := ⟨11⟩ }
/-- The document's update. -/
def q3 : SOp :=
  let low := { versions := [{ pk := ⟨901⟩, sk := [(.leaf 1, qbox1), (.leaf 0, qbox1)], encrypterPk := ⟨900⟩ }] }
  let top := { versions := [{ pk := ⟨902⟩, sk := [(.leaf 2, qbox2), (.inner 0, qbox2)], encrypterPk := ⟨901⟩ }] }
  let change := { leafId := 300, leafIdx := 0, leafPk := .share ⟨900⟩, path := [(0, low), (1, top)], removedKeys := [⟨900⟩] }
  ⟨.update 300 change [2], 1, 1900⟩
/-- Agent 5 adds Bob. -/
def q4 : SOp := ⟨.add 2 ⟨22⟩ 3 [3] [2], 5, 5002⟩
/-- What agent 5 then sends to the document's leaf. -/
def qbox3 : EncryptedSecret := { key := { lo := 700, hi := 900 }, plain := 701, pairedPk := ⟨900⟩ }
/-- To Bob. -/
def qbox4 : EncryptedSecret := { key := { lo := 22, hi := 701 }, plain := 702, pairedPk := ⟨22⟩ }
/-- To Alice. -/
def qbox5 : EncryptedSecret := { key := { lo := 11, hi := 701 }, plain := 702, pairedPk := ⟨11⟩ }
/-- And writes. -/
def q5 : SOp :=
  let low := { versions := [{ pk := ⟨701⟩, sk := [(.leaf 0, qbox3), (.leaf 1, qbox3)], encrypterPk := ⟨700⟩ }] }
  let top := { versions := [{ pk := ⟨702⟩, sk := [(.leaf 3, qbox4), (.leaf 2, qbox5), (.inner 0, qbox5)], encrypterPk := ⟨701⟩ }] }
  let change := { leafId := 5, leafIdx := 1, leafPk := .share ⟨700⟩, path := [(0, low), (1, top)], removedKeys := [⟨55⟩, ⟨901⟩] }
  ⟨.update 5 change [4], 5, 5900⟩
/-- Or agent 5 adds the public individual. -/
def u4 : SOp := ⟨.add MemberId.pub ⟨0⟩ 3 [3] [2], 5, 5000⟩
/-- Removes it. -/
def u5 : SOp := ⟨.remove MemberId.pub 3 [] [4], 5, 5500⟩
/-- And writes. -/
def u6 : SOp :=
  let low := { versions := [{ pk := ⟨701⟩, sk := [(.leaf 0, qbox3), (.leaf 1, qbox3)], encrypterPk := ⟨700⟩ }] }
  let top := { versions := [{ pk := ⟨702⟩, sk := [(.leaf 2, qbox5), (.inner 0, qbox5)], encrypterPk := ⟨701⟩ }] }
  let change := { leafId := 5, leafIdx := 1, leafPk := .share ⟨700⟩, path := [(0, low), (1, top)], removedKeys := [⟨55⟩, ⟨901⟩] }
  ⟨.update 5 change [5], 5, 5900⟩

/-- Digests when Bob is added. -/
noncomputable def EQ : Env := env (tableH [q0, q1, q2, q3, q4, q5])
/-- Digests when the public individual is added and removed. -/
noncomputable def EU : Env := env (tableH [q0, q1, q2, q3, u4, u5, u6])

theorem EQ_inj : ∀ i, Function.Injective (EQ.hashCgka i) := fun _ => tableH_injective _
theorem EU_inj : ∀ i, Function.Injective (EU.hashCgka i) := fun _ => tableH_injective _

/-- Alice's device after creating the document. -/
def creator (E : Env) : Keyhive := ((Keyhive.start regA [(⟨11⟩, 11)]).generateDoc E LC sg 300 [⟨.individual, 5⟩] [1]).1
/-- The delegations agent 5 receives. -/
def roots : List Event := [.dlg ⟨300, 300005, 5, .admin, none, [], [(300, [1])]⟩, .dlg ⟨300, 300001, 1, .admin, none, [], [(300, [1])]⟩]
/-- Agent 5's device after receiving the document. -/
def partner (E : Env) : Keyhive := feed E k0 (roots ++ [q0, q1, q2, q3].map (.cgka 300 ·))
/-- Agent 5 adds Bob. -/
noncomputable def v1 : Keyhive := ((partner EQ).addMemberToDoc EQ L 300 ⟨.individual, 2⟩ .read []).1
/-- And writes. -/
noncomputable def v2 : Keyhive := (v1.encryptContent EQ L 300 7 8 42).1
/-- Or adds the public individual. -/
noncomputable def pw1 : Keyhive := ((partner EU).addMemberToDoc EU L 300 ⟨.individual, MemberId.pub⟩ .read []).1
/-- Removes it. -/
noncomputable def pw2 : Keyhive := (pw1.revokeFromDoc EU L 300 MemberId.pub true []).1
/-- And writes. -/
noncomputable def pw3 : Keyhive := (pw2.encryptContent EU L 300 7 8 42).1
/-- Alice's device receives what agent 5 did. -/
noncomputable def aliceQ : Keyhive := feed EQ (creator EQ) ([] ++ [q4, q5].map (.cgka 300 ·))
/-- In the other case. -/
noncomputable def aliceU : Keyhive := feed EU (creator EU) ([] ++ [u4, u5, u6].map (.cgka 300 ·))

theorem LC_honest (hc : SOp → Nat) : LC.Honest (env hc) := ⟨sg_signs hc, fun _ _ _ h => by cases h; rfl⟩
theorem LC_good (doc : Id) : GoodSigner (LC.signCgka doc) := fun _ => ⟨_, rfl, rfl⟩
theorem LC_as : ∀ doc p o, LC.signCgka doc p = .ok o → o.issuer = 1 := fun _ _ _ h => by cases h; rfl
theorem L_as : ∀ doc p o, L.signCgka doc p = .ok o → o.issuer = 5 := fun _ _ _ h => by cases h; rfl

theorem creator_only (hc : SOp → Nat) : OnlyDevice (env hc) 1 (creator (env hc)) :=
  .call (.newDoc LC sg 300 [⟨.individual, 5⟩] [1]) (.start regA [(⟨11⟩, 11)] rfl (Verif.Cgka.Sample.honest_one 11) rfl) trivial
    ⟨sg_signs hc, LC_honest hc⟩ LC_good LC_as

theorem roots_no : ∀ did op, Event.cgka did op ∉ roots := by intro _ _ h; simp [roots] at h

theorem partner_only (hc : SOp → Nat) (h : ∀ op ∈ [q0, q1, q2, q3], recorded (creator (env hc)) 300 ((env hc).hashCgka 300 op) = some op) :
    OnlyDevice (env hc) 5 (partner (env hc)) := by
  refine mail_only (only_fleet (creator_only hc)) (.start reg [(⟨55⟩, 55)] rfl (Verif.Cgka.Sample.honest_one 55) rfl) roots roots_no _ h ?_
    (by decide)
  intro op ho pk i ps as he
  simp only [List.mem_cons, List.not_mem_nil, or_false] at ho
  rcases ho with rfl | rfl | rfl | rfl <;> cases he

theorem v1_only : OnlyDevice EQ 5 v1 :=
  .call (.addToDoc L 300 ⟨.individual, 2⟩ .read []) (partner_only _ (by decide +kernel)) trivial (L_honest _) L_good L_as
theorem v2_only : OnlyDevice EQ 5 v2 := .call (.encrypt L 300 7 8 42) v1_only trivial (L_honest _) L_good L_as
theorem pw1_only : OnlyDevice EU 5 pw1 :=
  .call (.addToDoc L 300 ⟨.individual, MemberId.pub⟩ .read []) (partner_only _ (by decide +kernel)) trivial (L_honest _) L_good L_as
theorem pw2_only : OnlyDevice EU 5 pw2 := .call (.revokeFromDoc L 300 MemberId.pub true []) pw1_only trivial (L_honest _) L_good L_as
theorem pw3_only : OnlyDevice EU 5 pw3 := .call (.encrypt L 300 7 8 42) pw2_only trivial (L_honest _) L_good L_as

theorem aliceQ_only : OnlyDevice EQ 1 aliceQ := by
  refine mail_only (only_fleet v2_only) (creator_only _) [] (by simp) _ (by decide +kernel) ?_ (by decide)
  intro op ho pk i ps as he
  simp only [List.mem_cons, List.not_mem_nil, or_false] at ho
  rcases ho with rfl | rfl <;> cases he

theorem aliceU_only : OnlyDevice EU 1 aliceU := by
  refine mail_only (only_fleet pw3_only) (creator_only _) [] (by simp) _ (by decide +kernel) ?_ (by decide)
  intro op ho pk i ps as he
  simp only [List.mem_cons, List.not_mem_nil, or_false] at ho
  rcases ho with rfl | rfl | rfl <;> cases he
  rfl

theorem aliceQ_has : (treeOf aliceQ 300).isSome = true := by decide +kernel
theorem v2_has : (treeOf v2 300).isSome = true := by decide +kernel
theorem aliceU_has : (treeOf aliceU 300).isSome = true := by decide +kernel
theorem pw3_has : (treeOf pw3 300).isSome = true := by decide +kernel

/-- A write that makes an update. -/
theorem wrote {k : Keyhive} {t : SOp} (h : ((k.encryptContent E L 300 7 8 42).2.toOption.bind (fun p => p.2)) = some t) :
    ∃ e, k.encryptContent E L 300 7 8 42 = ((k.encryptContent E L 300 7 8 42).1, .ok (e, some t)) := by
  cases hq : k.encryptContent E L 300 7 8 42 with
  | mk k' r =>
    rw [hq] at h
    cases r with
    | error err => cases h
    | ok p => obtain ⟨e, o⟩ := p; cases h; exact ⟨e, rfl⟩

/-- What a device has on record about somebody's place. -/
theorem places_of {k : Keyhive} {id : Id} (ha : (treeOf k 300).isSome = true)
    (h : ∀ p ∈ ((treeOf k 300).get ha).graph.ops, p.2.payload.GivesTo id → Places me p.2) (op : SOp) (ho : HasKeyOp E k 300 op)
    (hg : op.payload.GivesTo id) : Places me op := by
  obtain ⟨d', e3, e4⟩ := doc_of ha
  obtain ⟨d, c, f1, f2, f3⟩ := ho
  rw [e3] at f1
  cases f1
  rw [e4] at f2
  cases f2
  exact h _ (AMap.mem_of_get f3) hg

theorem alice_ops : ∀ p ∈ ((treeOf alice 300).get alice_has).graph.ops, p.2 ∈ [t0, t1, t2, t3, t5] := by decide +kernel
theorem aliceQ_ops : ∀ p ∈ ((treeOf aliceQ 300).get aliceQ_has).graph.ops, p.2 ∈ [q0, q1, q2, q3, q4, q5] := by decide +kernel

/-- Alice was added by agent 5. -/
theorem alice_places (op : SOp) (ho : HasKeyOp EF alice 300 op) (hg : op.payload.GivesTo 1) : Places 1 op := by
  refine places_of alice_has (fun p hp hg => ?_) op ho hg
  have := alice_ops p hp
  obtain ⟨y, o⟩ := p
  dsimp only at hg this ⊢
  clear hp
  simp only [List.mem_cons, List.not_mem_nil, or_false] at this
  rcases this with rfl | rfl | rfl | rfl | rfl
  · exact absurd (show (_ : Nat) = _ from hg) (by decide)
  · exact absurd (show (_ : Nat) = _ from hg) (by decide)
  · exact absurd (show (_ : Nat) = _ from hg) (by decide)
  · exact .inl ⟨by decide, _, _, _, _, _, rfl⟩
  · exact absurd (show (_ : Nat) = _ from hg) (by decide)

/-- The document's leaf is Alice's, who created it. -/
theorem aliceQ_places (op : SOp) (ho : HasKeyOp EQ aliceQ 300 op) (hg : op.payload.GivesTo 300) : Places 1 op := by
  refine places_of aliceQ_has (fun p hp hg => ?_) op ho hg
  have := aliceQ_ops p hp
  obtain ⟨y, o⟩ := p
  dsimp only at hg this ⊢
  clear hp
  simp only [List.mem_cons, List.not_mem_nil, or_false] at this
  rcases this with rfl | rfl | rfl | rfl | rfl | rfl
  · exact .inr (.inl ⟨rfl, _, _, _, _, rfl⟩)
  · exact absurd (show (_ : Nat) = _ from hg) (by decide)
  · exact absurd (show (_ : Nat) = _ from hg) (by decide)
  · exact .inr (.inr ⟨rfl, _, _, _, rfl⟩)
  · exact absurd (show (_ : Nat) = _ from hg) (by decide)
  · exact absurd (show (_ : Nat) = _ from hg) (by decide)

/-- What agent 5 wrote after the public individual was added and removed. -/
theorem wrote_u : ∃ e, pw2.encryptContent EU L 300 7 8 42 = (pw3, .ok (e, some u6)) ∧
    ((pw2.encryptContent EU L 300 7 8 42).2.toOption.map (·.1)) = some e := by
  obtain ⟨e, he⟩ := wrote (E := EU) (k := pw2) (t := u6) (by decide +kernel)
  exact ⟨e, he, by rw [he]; rfl⟩

/-- Alice's device tries to read it. -/
theorem unread : ((pw2.encryptContent EU L 300 7 8 42).2.toOption.map (·.1)).all
    (fun e => (aliceU.decryptContent EU 300 e).2.toOption.isNone) = true := by decide +kernel

end PlaceSample

namespace PlaceProps

/-- C113, the secret of one's leaf: a device that is the only one of its agent holds the secret of the key on its leaf in every writer's key
tree, when it has the group-key operations the writer has and got its place there by starting the group, by being added by somebody else to a
group that exists already, or by its own key updates.
Missing: as in C80, additions and removals at the same time as other operations. `C113_fails` shows that a place obtained otherwise is not enough. -/
theorem C113_holds_partial (hH : ∀ i, Function.Injective (E.hashCgka i)) {k w : Keyhive} (hk : OnlyDevice E me k) (hw : Fleet E w) {did : Id}
    {d d' : Doc} {b a : Cgka} (hd : AMap.get k.docs did = some d) (hc : d.cgka = some b) (hd' : AMap.get w.docs did = some d')
    (hc' : d'.cgka = some a) (h1 : ChangesApart b) (h2 : UpdatesInTurn b) (h3 : FreshKeys b) (h4 : DistinctKeys b)
    (hkn : ∀ op, HasKeyOp E w did op → HasKeyOp E k did op) (hl : a.graph.heads.length = 1) (hin : a.tree.containsId b.ownerId = true)
    (hown : ∀ op, HasKeyOp E k did op → op.payload.GivesTo b.ownerId → Places me op) : HoldsLeaf a.tree b.ownerId b.ownerSks := by
  have ta := fleet_trusted hH hw hd' hc'
  have tb := fleet_trusted hH (only_fleet hk) hd hc
  have sa := (reachOk_inv (hH did) (trusted_ok ta)).graph
  have sb := (reachOk_inv (hH did) (trusted_ok tb)).graph
  have hkn' := known_of hd hc hd' hc' sa hkn
  have hsub : KnownIn a.graph b.graph := fun x hx => (knows_iff b x).1 (hkn' x ((knows_iff a x).2 hx))
  have T := (together_of sb h1 h2 h3).sub (hH did) sa sb hsub
  obtain ⟨s, y, o, e1, e2, e3, e4⟩ := leaf_from (hH did) ta T (FreshG.sub (hH did) sa sb hsub ⟨h3, h4⟩) hl hin
  have hy : AMap.get a.graph.ops y ≠ none := by rw [e2]; simp
  have e2' : AMap.get b.graph.ops y = some o := by rw [← ops_agree (hH did) sa sb hy (hsub y hy), e2]
  have hp := hown o ⟨d, b, hd, hc, by rw [sb.hash y o e2']; exact e2'⟩ e3
  cases hq : AMap.get b.ownerSks ⟨s⟩ with
  | none => exact absurd hq (only_keeps hH hk hd hc y o e2' hp s e4)
  | some sk => exact ⟨⟨s⟩, sk, e1, hq⟩

/-- C113: whatever a device of the fleet writes in a document can be read by every device that is the only one of its agent, has received the
group-key operations the writer had, is in the group, and got its place there by creating the document, by being added by somebody else, or by its
own key updates. Compared with `C80_devices_partial` it is not assumed but proved that the reader holds the secret of its leaf. -/
theorem C113_reads_partial (hH : ∀ i, Function.Injective (E.hashCgka i)) {k w w' : Keyhive} (hk : OnlyDevice E me k) (hw : Fleet E w) {L : Local}
    (hL : L.Honest E) (hs : ∀ doc, GoodSigner (L.signCgka doc)) {did : Id} {r ps x : Nat} {e : EncContent} {o : SOp}
    (he : w.encryptContent E L did r ps x = (w', .ok (e, some o))) {d d' : Doc} {b a : Cgka} (hd : AMap.get k.docs did = some d)
    (hc : d.cgka = some b) (hd' : AMap.get w'.docs did = some d') (hc' : d'.cgka = some a) (h1 : ChangesApart b) (h2 : UpdatesInTurn b)
    (h3 : FreshKeys b) (h4 : DistinctKeys b) (hkn : ∀ op, HasKeyOp E w' did op → HasKeyOp E k did op)
    (hin : a.tree.containsId b.ownerId = true)
    (hown : ∀ op, HasKeyOp E k did op → op.payload.GivesTo b.ownerId → Places me op) : ∃ key, (k.decryptContent E did e).2 = .ok (x, key) := by
  refine FleetProps.C80_devices_partial hH (only_fleet hk) hw hL hs he hd hc hd' hc' h1 h2 h3 hkn ?_
  refine C113_holds_partial hH hk (fleet_write hw hL hs he) hd hc hd' hc' h1 h2 h3 h4 hkn ?_ hin hown
  obtain ⟨d0, a0, a', s, f1, f2, f3, f4, f5⟩ := encrypt_tree he
  rw [f5] at hd'
  cases hd'
  cases hc'
  rw [(Verif.Cgka.DeliveryProps.C80_header f3).2]
  rfl

-- Agent 5 creates a document, makes Alice a reader and writes; Alice's device has received all of it.
open FleetSample Verif.Keyhive.Sample PlaceSample in
example : ∃ e key, d2.encryptContent EF L2 300 7 8 42 = (d3, .ok (e, some t5)) ∧ (alice.decryptContent EF 300 e).2 = .ok (42, key) := by
  obtain ⟨d, e1, e2⟩ := doc_of alice_has
  obtain ⟨d', e3, e4⟩ := doc_of d3_has
  obtain ⟨e, he⟩ := write_ok (E := EF) (k := d2) (t := t5) (by decide +kernel)
  have ho : ((treeOf alice 300).get alice_has).ownerId = 1 := by decide +kernel
  obtain ⟨key, hkey⟩ := C113_reads_partial EF_inj alice_only (made_fleet hcF 1) (L2_honest _) L2_good he e1 e2 e3 e4
    (changes_of (by decide +kernel)) (turns_of (by decide +kernel)) (fresh_of (by decide +kernel))
    (Verif.Cgka.CutOffProps.Example.distinct_of (by decide +kernel)) (all_of d3_has (by decide +kernel)) (by decide +kernel)
    (fun op h hg => alice_places op h (ho ▸ hg))
  exact ⟨e, key, he, hkey⟩

-- Alice creates a document together with agent 5, who makes Bob a reader and writes; Alice's device reads with the leaf of the document.
open FleetSample Verif.Keyhive.Sample PlaceSample in
example : ∃ e key, v1.encryptContent EQ L 300 7 8 42 = (v2, .ok (e, some q5)) ∧ (aliceQ.decryptContent EQ 300 e).2 = .ok (42, key) := by
  obtain ⟨d, e1, e2⟩ := doc_of aliceQ_has
  obtain ⟨d', e3, e4⟩ := doc_of v2_has
  obtain ⟨e, he⟩ := wrote (E := EQ) (k := v1) (t := q5) (by decide +kernel)
  have ho : ((treeOf aliceQ 300).get aliceQ_has).ownerId = 300 := by decide +kernel
  obtain ⟨key, hkey⟩ := C113_reads_partial EQ_inj aliceQ_only (only_fleet v1_only) (L_honest _) L_good he e1 e2 e3 e4
    (changes_of (by decide +kernel)) (turns_of (by decide +kernel)) (fresh_of (by decide +kernel))
    (Verif.Cgka.CutOffProps.Example.distinct_of (by decide +kernel)) (all_of v2_has (by decide +kernel)) (by decide +kernel)
    (fun op h hg => aliceQ_places op h (ho ▸ hg))
  exact ⟨e, key, he, hkey⟩

/-- C113 fails for a document's creator once somebody else has made the document public: Alice creates a document together with agent 5, who adds the
public individual, removes it again and writes. Alice's device has received all of it and they are still a member, but cannot read: on seeing the
addition the device takes over Alice's own leaf, to which it had itself put a prekey whose secret is not among the document's keys. -/
theorem C113_fails : ∃ (E : Env) (k w w' : Keyhive) (L : Local) (e : EncContent) (o : SOp) (d d' : Doc) (b a : Cgka),
    (∀ i, Function.Injective (E.hashCgka i)) ∧ OnlyDevice E 1 k ∧ Fleet E w ∧ L.Honest E ∧ (∀ doc, GoodSigner (L.signCgka doc)) ∧
    w.encryptContent E L 300 7 8 42 = (w', .ok (e, some o)) ∧ AMap.get k.docs 300 = some d ∧ d.cgka = some b ∧
    AMap.get w'.docs 300 = some d' ∧ d'.cgka = some a ∧ ChangesApart b ∧ UpdatesInTurn b ∧ FreshKeys b ∧ DistinctKeys b ∧
    (∀ op, HasKeyOp E w' 300 op → HasKeyOp E k 300 op) ∧ b.ownerId = 1 ∧ a.tree.containsId 1 = true ∧
    ∀ x key, (k.decryptContent E 300 e).2 ≠ .ok (x, key) := by
  open FleetSample Verif.Keyhive.Sample PlaceSample in
  obtain ⟨d, e1, e2⟩ := doc_of aliceU_has
  obtain ⟨d', e3, e4⟩ := doc_of pw3_has
  obtain ⟨e, he, hq⟩ := wrote_u
  refine ⟨EU, aliceU, pw2, pw3, L, e, u6, d, d', _, _, EU_inj, aliceU_only, only_fleet pw2_only, L_honest _, L_good, he, e1, e2, e3, e4,
    changes_of (by decide +kernel), turns_of (by decide +kernel), fresh_of (by decide +kernel),
    Verif.Cgka.CutOffProps.Example.distinct_of (by decide +kernel), all_of pw3_has (by decide +kernel), by decide +kernel, by decide +kernel, ?_⟩
  intro x key h
  have := unread
  rw [hq] at this
  simp only [Option.all_some] at this
  rw [h] at this
  cases this

end PlaceProps

end Verif.Keyhive
