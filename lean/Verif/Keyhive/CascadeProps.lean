import Verif.Keyhive.LostProps
import Verif.Keyhive.WriterProps
import Verif.Keyhive.KeyHashProps

/-!
# A revocation that takes away the access of others leaves them their keys (C124)

Somebody's access may rest on the membership of whoever gave it to them. When the giver is revoked they drop out of the members with the giver. The
key group follows only the revoked member.
-/

namespace Verif.Keyhive

open Verif.Group Verif.Cgka Verif.BeeKem

namespace CascadeSample

open Verif.Keyhive.Sample FleetSample PlaceSample WriterSample KeyHashProps.KeyHashSample

/-- Bob's device knows Carol (3) too. -/
def regBob : Prekey.Registry := ⟨2, 0, [card 0, card 5, card 1, card 2, card 3], []⟩
/-- Carol's device. -/
def regCarol : Prekey.Registry := ⟨3, 0, [card 0, card 5, card 1, card 2, card 3], []⟩
/-- Agent 5 makes Alice an administrator. -/
def toAlice : SDlg := ⟨5, 5001, 1, .admin, some (hashDlg rootDlg), [], []⟩
/-- Alice makes Bob one. -/
def toBob : SDlg := ⟨1, 1002, 2, .admin, some (hashDlg toAlice), [], []⟩
/-- Bob makes Carol a reader. -/
def toCarol : SDlg := ⟨2, 2003, 3, .read, some (hashDlg toBob), [], []⟩
/-- Bob comes into the key group. -/
def g4 : SOp := ⟨.add 2 ⟨22⟩ 3 [3] [3], 1, 1900⟩
/-- Carol does. -/
def g5 : SOp := ⟨.add 3 ⟨33⟩ 4 [4] [4], 2, 2900⟩
/-- Alice is removed. -/
def g6 : SOp := ⟨.remove 1 2 [] [5], 5, 5501⟩
/-- Bob is removed. -/
def g7 : SOp := ⟨.remove 2 3 [] [6], 5, 5502⟩
/-- What agent 5 then sends to its own half of the tree. -/
def gbox2 : EncryptedSecret := { key := { lo := 801, hi := 803 }, plain := 802, pairedPk := ⟨803⟩ }
/-- And to Carol. -/
def gbox3 : EncryptedSecret := { key := { lo := 33, hi := 802 }, plain := 804, pairedPk := ⟨33⟩ }
/-- The update agent 5 makes when writing. -/
def g8 : SOp :=
  let low := { versions := [{ pk := ⟨801⟩, sk := [(.leaf 1, box1), (.leaf 0, box1)], encrypterPk := ⟨800⟩ }] }
  let mid := { versions := [{ pk := ⟨802⟩, sk := [(.inner 0, gbox2)], encrypterPk := ⟨801⟩ }] }
  let top := { versions := [{ pk := ⟨804⟩, sk := [(.leaf 4, gbox3), (.inner 1, gbox3)], encrypterPk := ⟨802⟩ }] }
  let change := { leafId := 300, leafIdx := 0, leafPk := .share ⟨800⟩, path := [(0, low), (1, mid), (3, top)], removedKeys := [⟨700⟩, ⟨701⟩] }
  ⟨.update 300 change [7], 5, 5901⟩

/-- Digests and signatures. -/
noncomputable def EC : Env := env (tableH [t0, t1, t2, t3, g4, g5, g6, g7, g8])
theorem EC_inj : ∀ i, Function.Injective (EC.hashCgka i) := fun _ => tableH_injective _

/-- Agent 5 makes document 300 and Alice an administrator of it. -/
noncomputable def boss1 : Keyhive := ((k0.generateDoc EC L sg 300 [] [1]).1.addMemberToDoc EC L 300 ⟨.individual, 1⟩ .admin []).1
/-- Alice's device gets word of it. -/
noncomputable def ali1 : Keyhive := feed EC (Keyhive.start regA [(⟨11⟩, 11)]) ([.dlg rootDlg, .dlg toAlice] ++ [t0, t1, t2, t3].map (.cgka 300 ·))
/-- Alice makes Bob an administrator. -/
noncomputable def ali2 : Keyhive := (ali1.addMemberToDoc EC LA 300 ⟨.individual, 2⟩ .admin []).1
/-- Bob's device gets word of it. -/
noncomputable def bob1 : Keyhive :=
  feed EC (Keyhive.start regBob [(⟨22⟩, 22)]) ([.dlg rootDlg, .dlg toAlice, .dlg toBob] ++ [t0, t1, t2, t3, g4].map (.cgka 300 ·))
/-- Bob makes Carol a reader. -/
noncomputable def bob2 : Keyhive := (bob1.addMemberToDoc EC LB 300 ⟨.individual, 3⟩ .read []).1
/-- Agent 5 hears of both. -/
noncomputable def boss2 : Keyhive := feed EC boss1 ([.dlg toBob, .dlg toCarol] ++ [g4, g5].map (.cgka 300 ·))
/-- Agent 5 revokes Alice alone. -/
noncomputable def boss3 : Keyhive := (boss2.revokeFromDoc EC L 300 1 false []).1
/-- And then Bob alone. -/
noncomputable def boss4 : Keyhive := (boss3.revokeFromDoc EC L 300 2 false []).1
/-- And writes. -/
noncomputable def boss5 : Keyhive := (boss4.encryptContent EC L2 300 7 8 42).1
/-- Carol's device has received everything. -/
noncomputable def carol : Keyhive :=
  feed EC (Keyhive.start regCarol [(⟨33⟩, 33)]) ([.dlg rootDlg, .dlg toAlice, .dlg toBob, .dlg toCarol] ++ [t0, t1, t2, t3, g4, g5, g6, g7, g8].map (.cgka 300 ·))

theorem boss1_fleet : Fleet EC boss1 :=
  .call (.addToDoc L 300 ⟨.individual, 1⟩ .admin []) (.call (.newDoc L sg 300 [] [1]) (.start reg [(⟨55⟩, 55)] rfl (Verif.Cgka.Sample.honest_one 55))
    trivial ⟨sg_signs _, L_honest _⟩ L_good) trivial (L_honest _) L_good

theorem nobody_public : ∀ op ∈ [t0, t1, t2, t3, g4, g5, g6, g7, g8], op.payload.GivesTo MemberId.pub → False := by
  intro op ho
  simp only [List.mem_cons, List.not_mem_nil, or_false] at ho
  rcases ho with rfl | rfl | rfl | rfl | rfl | rfl | rfl | rfl | rfl
  on_goal 7 => exact fun h => h.elim
  on_goal 7 => exact fun h => h.elim
  all_goals exact fun h => absurd (show (_ : Nat) = _ from h) (by decide)

theorem ali1_fleet : Fleet EC ali1 :=
  mails_fleet boss1_fleet (.start regA [(⟨11⟩, 11)] rfl (Verif.Cgka.Sample.honest_one 11)) _ (by simp) _ (by decide +kernel)
    (fun op ho => nobody_public op (by simp only [List.mem_cons, List.not_mem_nil, or_false] at ho ⊢; tauto))
theorem ali2_fleet : Fleet EC ali2 := .call (.addToDoc LA 300 ⟨.individual, 2⟩ .admin []) ali1_fleet trivial (LA_honest _) LA_good
theorem bob1_fleet : Fleet EC bob1 :=
  mails_fleet ali2_fleet (.start regBob [(⟨22⟩, 22)] rfl (Verif.Cgka.Sample.honest_one 22)) _ (by simp) _ (by decide +kernel)
    (fun op ho => nobody_public op (by simp only [List.mem_cons, List.not_mem_nil, or_false] at ho ⊢; tauto))
theorem bob2_fleet : Fleet EC bob2 := .call (.addToDoc LB 300 ⟨.individual, 3⟩ .read []) bob1_fleet trivial (LB_honest _) LB_good
theorem boss2_fleet : Fleet EC boss2 :=
  mails_fleet bob2_fleet boss1_fleet _ (by simp) _ (by decide +kernel)
    (fun op ho => nobody_public op (by simp only [List.mem_cons, List.not_mem_nil, or_false] at ho ⊢; tauto))
theorem boss3_fleet : Fleet EC boss3 := .call (.revokeFromDoc L 300 1 false []) boss2_fleet trivial (L_honest _) L_good
theorem boss4_fleet : Fleet EC boss4 := .call (.revokeFromDoc L 300 2 false []) boss3_fleet trivial (L_honest _) L_good
theorem boss5_fleet : Fleet EC boss5 := .call (.encrypt L2 300 7 8 42) boss4_fleet trivial (L2_honest _) L2_good
theorem carol_only : OnlyDevice EC 3 carol :=
  mail_only boss5_fleet (.start regCarol [(⟨33⟩, 33)] rfl (Verif.Cgka.Sample.honest_one 33) rfl) _ (by simp) _ (by decide +kernel)
    (not_public nobody_public) (by decide)

end CascadeSample

namespace CascadeProps

open CascadeSample Verif.Keyhive.Sample FleetSample in
/-- Those whose access rested on the revoked member keep their keys. Agent 5 made Alice an administrator of the document, Alice made Bob one, and Bob
made Carol a reader. Agent 5 has revoked Alice and now revokes Bob. Carol was a reader until then, and with Bob's revocation drops out of the members,
because nobody left stands behind what Bob gave. Agent 5 writes in the document, and Carol's device reads it. All devices run the library. -/
theorem C124_fails_cascade : ∃ (E : Env) (L L' : Local) (w w1 v' k : Keyhive) (ops : List SOp) (d d1 : Doc) (tm tm1 : AMap Id (Agent × Access))
    (e : EncContent) (o : Option SOp) (key : AppKey), (∀ i, Function.Injective (E.hashCgka i)) ∧ Fleet E w ∧ OnlyDevice E 3 k ∧
    AMap.get w.docs 300 = some d ∧ transitiveMembers w.world [300] d.group = .ok tm ∧ AMap.get tm 3 = some (⟨.individual, 3⟩, .read) ∧
    w.revokeFromDoc E L 300 2 false [] = (w1, .ok ops) ∧
    AMap.get w1.docs 300 = some d1 ∧ transitiveMembers w1.world [300] d1.group = .ok tm1 ∧ AMap.get tm1 3 = none ∧
    w1.encryptContent E L' 300 7 8 42 = (v', .ok (e, o)) ∧ (k.decryptContent E 300 e).2 = .ok (42, key) := by
  have hrv : isOk (boss3.revokeFromDoc EC L 300 2 false []).2 = true := by decide +kernel
  have hm0 : (AMap.get boss3.docs 300).bind (fun d => (transitiveMembers boss3.world [300] d.group).toOption.map (fun tm => AMap.get tm 3)) =
      some (some (⟨.individual, 3⟩, .read)) := by decide +kernel
  have hm1 : (AMap.get boss4.docs 300).bind (fun d => (transitiveMembers boss4.world [300] d.group).toOption.map (fun tm => AMap.get tm 3)) =
      some none := by decide +kernel
  have hread : ((boss4.encryptContent EC L2 300 7 8 42).2.toOption.bind (fun p => (carol.decryptContent EC 300 p.1).2.toOption.map Prod.fst)) =
      some 42 := by decide +kernel
  obtain ⟨d0, hd0, hm0⟩ := Option.bind_eq_some_iff.1 hm0
  obtain ⟨tm0, ht0, hm0⟩ := Option.map_eq_some_iff.1 hm0
  obtain ⟨d1, hd1, hm1⟩ := Option.bind_eq_some_iff.1 hm1
  obtain ⟨tm1, ht1, hm1⟩ := Option.map_eq_some_iff.1 hm1
  have ok_of : ∀ {α ε : Type} {x : Except ε α} {a : α}, x.toOption = some a → x = .ok a := by
    intro α ε x a h
    cases x with
    | error e => cases h
    | ok b => cases h; rfl
  obtain ⟨ops, hops⟩ : ∃ ops, boss3.revokeFromDoc EC L 300 2 false [] = (boss4, .ok ops) := by
    unfold boss4
    cases hr : boss3.revokeFromDoc EC L 300 2 false [] with
    | mk k' r =>
      rw [hr] at hrv
      cases r with
      | error err => cases hrv
      | ok ops => exact ⟨ops, rfl⟩
  cases hw : boss4.encryptContent EC L2 300 7 8 42 with
  | mk v' r =>
    rw [hw] at hread
    cases r with
    | error err => cases hread
    | ok p =>
      obtain ⟨e, o⟩ := p
      cases hdec : (carol.decryptContent EC 300 e).2 with
      | error err => simp [hdec, Except.toOption] at hread
      | ok q =>
        obtain ⟨x, key⟩ := q
        simp [hdec, Except.toOption] at hread
        subst hread
        exact ⟨EC, L, L2, boss3, boss4, v', carol, ops, d0, d1, tm0, tm1, e, o, key, EC_inj, boss3_fleet, carol_only, hd0, ok_of ht0, hm0, hops,
          hd1, ok_of ht1, hm1, hw, hdec⟩

end CascadeProps

end Verif.Keyhive
