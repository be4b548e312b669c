import Verif.Keyhive.GivenUp
import Verif.Keyhive.LostProps

/-! # C144 — giving up the revocation of a member of a group -/

namespace Verif.Keyhive.GivenUpProps

open Verif.Group Verif.Cgka Verif.BeeKem

variable {E : Env}

/-- The membership of the two devices is the same: groups and stored delegations and revocations. -/
structure SameMembership (k k' : Keyhive) : Prop where
  groups : k'.groups = k.groups
  dlgs : k'.dlgs = k.dlgs
  revs : k'.revs = k.revs

theorem SameMembership.trans {a b c : Keyhive} (h : SameMembership a b) (h' : SameMembership b c) : SameMembership a c :=
  ⟨h'.groups.trans h.groups, h'.dlgs.trans h.dlgs, h'.revs.trans h.revs⟩

theorem remove_same (k : Keyhive) (L : Local) (gid : Id) (ids : List Id) (did : Id) :
    SameMembership k (k.propagateRemove E L gid ids did).1 := by
  unfold Keyhive.propagateRemove
  repeat' split
  all_goals exact ⟨rfl, rfl, rfl⟩

theorem removes_same {L : Local} {gid : Id} {ids : List Id} : ∀ (dids : List Id) (k : Keyhive) (acc : List SOp),
    SameMembership k (Keyhive.propagateRemoves E L gid ids k dids acc).1
  | [], _, _ => ⟨rfl, rfl, rfl⟩
  | did :: dids, k, acc => by
    have h1 := remove_same (E := E) k L gid ids did
    unfold Keyhive.propagateRemoves
    split
    · rename_i heq; rw [heq] at h1; exact h1
    · rename_i heq; rw [heq] at h1; exact h1.trans (removes_same dids _ _)

theorem remove_other (k : Keyhive) (L : Local) (gid : Id) (ids : List Id) {did i : Id} (hi : i ≠ did) :
    AMap.get (k.propagateRemove E L gid ids did).1.docs i = AMap.get k.docs i := by
  unfold Keyhive.propagateRemove
  split
  · rfl
  · rename_i doc hd
    repeat' split
    · rfl
    · rfl
    · dsimp only
      rw [get_setDoc hd, if_neg hi]

theorem removes_other {L : Local} {gid : Id} {ids : List Id} {i : Id} : ∀ (dids : List Id) (k : Keyhive) (acc : List SOp), i ∉ dids →
    AMap.get (Keyhive.propagateRemoves E L gid ids k dids acc).1.docs i = AMap.get k.docs i
  | [], _, _, _ => rfl
  | did :: dids, k, acc, h => by
    simp only [List.mem_cons, not_or] at h
    have h1 := remove_other (E := E) k L gid ids h.1
    unfold Keyhive.propagateRemoves
    split
    · rename_i heq; rw [heq] at h1; exact h1
    · rename_i heq; rw [heq] at h1; exact (removes_other dids _ _ h.2).trans h1

theorem removes_append {L : Local} {gid : Id} {ids : List Id} {i : Id} : ∀ (xs ys : List Id) (k : Keyhive) (acc : List SOp), i ∉ ys →
    AMap.get (Keyhive.propagateRemoves E L gid ids k (xs ++ ys) acc).1.docs i =
      AMap.get (Keyhive.propagateRemoves E L gid ids k xs acc).1.docs i
  | [], ys, k, acc, h => removes_other ys k acc h
  | x :: xs, ys, k, acc, h => by
    rw [List.cons_append]
    unfold Keyhive.propagateRemoves
    split
    · rfl
    · exact removes_append xs ys _ _ h

/-- Either the call does not come to the documents, or it goes through them. -/
theorem revoke_cases (L : Local) (k : Keyhive) (gid member : Id) (retain : Bool) (content : Content) :
    ((k.revokeFromGroup E L gid member retain content).1.docs = k.docs ∧
      ∀ n, k.revokeFromGroupUpTo E L n gid member retain content = k.revokeFromGroup E L gid member retain content) ∨
    ∃ (k' : Keyhive) (ids : List Id), k'.docs = k.docs ∧
      k.revokeFromGroup E L gid member retain content = k'.propagateRemoves E L gid ids (AMap.keys k.docs) [] ∧
      ∀ n, k.revokeFromGroupUpTo E L n gid member retain content = k'.propagateRemoves E L gid ids ((AMap.keys k.docs).take n) [] := by
  unfold Keyhive.revokeFromGroupUpTo Keyhive.revokeFromGroup
  cases hg : AMap.get k.groups gid with
  | none => exact .inl ⟨rfl, fun _ => rfl⟩
  | some g =>
    dsimp only
    cases hi : idsBehind k.world [] (((AMap.get g.members member).getD []).map Dlg.delegate) [] with
    | error e => exact .inl ⟨rfl, fun _ => rfl⟩
    | ok ids =>
      dsimp only
      rcases g.revokeMember E.opDigest (membersOf k.world [gid]) L.sign member retain k.reg.me content with ⟨g', e | ⟨revs, dlgs⟩⟩
      · refine .inl ⟨?_, fun _ => rfl⟩
        show (k.storeNew E g g').docs = _
        unfold Keyhive.storeNew
        rw [(storeAll_same ..).2.1]
      · have hd := (storeAll_same (E := E) revs dlgs k).2.1
        dsimp only
        split
        · exact .inl ⟨hd, fun _ => rfl⟩
        · exact .inr ⟨{ k.storeAll E revs dlgs with groups := AMap.insert k.groups gid g' }, ids, hd, by simp only [hd],
            fun n => by simp only [hd]⟩

/-- C144: a call that goes through all documents is the call itself. -/
theorem C144_whole (L : Local) (n : Nat) (k : Keyhive) (gid member : Id) (retain : Bool) (content : Content)
    (hn : (AMap.keys k.docs).length ≤ n) :
    k.revokeFromGroupUpTo E L n gid member retain content = k.revokeFromGroup E L gid member retain content := by
  rcases revoke_cases (E := E) L k gid member retain content with ⟨-, h⟩ | ⟨k', ids, -, h1, h2⟩
  · exact h n
  · rw [h1, h2, List.take_of_length_le hn]

/-- C144: wherever the call is given up, the groups and the stored delegations and revocations are those of the complete call. -/
theorem C144_members (L : Local) (n : Nat) (k : Keyhive) (gid member : Id) (retain : Bool) (content : Content) :
    SameMembership (k.revokeFromGroup E L gid member retain content).1 (k.revokeFromGroupUpTo E L n gid member retain content).1 := by
  rcases revoke_cases (E := E) L k gid member retain content with ⟨-, h⟩ | ⟨k', ids, -, h1, h2⟩
  · rw [h n]; exact ⟨rfl, rfl, rfl⟩
  · rw [h1, h2]
    obtain ⟨a1, a2, a3⟩ := removes_same (E := E) (L := L) (gid := gid) (ids := ids) (AMap.keys k.docs) k' []
    obtain ⟨b1, b2, b3⟩ := removes_same (E := E) (L := L) (gid := gid) (ids := ids) ((AMap.keys k.docs).take n) k' []
    exact ⟨b1.trans a1.symm, b2.trans a2.symm, b3.trans a3.symm⟩

/-- C144, the part that holds for documents: a document the call has gone through is as after the complete call. Missing: the other
ones, which are as before (`C144_not_reached`) and stay so when the call is made again (`C144_again`, `C144_fails`). -/
theorem C144_reached_partial (L : Local) (n : Nat) (k : Keyhive) (gid member : Id) (retain : Bool) (content : Content) (did : Id)
    (h : did ∉ (AMap.keys k.docs).drop n) :
    AMap.get (k.revokeFromGroupUpTo E L n gid member retain content).1.docs did =
      AMap.get (k.revokeFromGroup E L gid member retain content).1.docs did := by
  rcases revoke_cases (E := E) L k gid member retain content with ⟨-, h'⟩ | ⟨k', ids, -, h1, h2⟩
  · rw [h' n]
  · have := removes_append (E := E) (L := L) (gid := gid) (ids := ids) (i := did) ((AMap.keys k.docs).take n)
      ((AMap.keys k.docs).drop n) k' [] h
    rw [List.take_append_drop] at this
    rw [h1, h2, this]

/-- C144: a document the call has not gone through is as before. -/
theorem C144_not_reached (L : Local) (n : Nat) (k : Keyhive) (gid member : Id) (retain : Bool) (content : Content) (did : Id)
    (h : did ∉ (AMap.keys k.docs).take n) :
    AMap.get (k.revokeFromGroupUpTo E L n gid member retain content).1.docs did = AMap.get k.docs did := by
  rcases revoke_cases (E := E) L k gid member retain content with ⟨h0, h'⟩ | ⟨k', ids, h0, -, h2⟩
  · rw [h' n, h0]
  · rw [h2, removes_other _ _ _ h, h0]

/-- C144: revoking somebody who is not a member of the group, for example because an earlier call got as far as that, changes no
document and hands back no operation of a key group. -/
theorem C144_again (L : Local) (k : Keyhive) (gid member : Id) (retain : Bool) (content : Content) {g : Group}
    (hg : AMap.get k.groups gid = some g) (hm : AMap.get g.members member = none) :
    (k.revokeFromGroup E L gid member retain content).1.docs = k.docs ∧
      ∀ ops, (k.revokeFromGroup E L gid member retain content).2 = .ok ops → ops = [] := by
  unfold Keyhive.revokeFromGroup
  rw [hg]
  simp only [hm, Option.getD_none, List.map_nil, idsBehind]
  rcases g.revokeMember E.opDigest (membersOf k.world [gid]) L.sign member retain k.reg.me content with ⟨g', e | ⟨revs, dlgs⟩⟩
  · refine ⟨?_, fun ops h => by cases h⟩
    show (k.storeNew E g g').docs = _
    unfold Keyhive.storeNew
    rw [(storeAll_same ..).2.1]
  · refine ⟨?_, fun ops h => by cases h; rfl⟩
    show (k.storeAll E revs dlgs).docs = _
    rw [(storeAll_same ..).2.1]

open LostSample SpreadSample ShutSample HeldSample PlaceSample Verif.Keyhive.Sample Verif.Keyhive.FleetSample

/-- Agent 5 starts to take Alice out of the group, and gives up before the document. -/
noncomputable def half : Keyhive := ((clubbed EF).revokeFromGroupUpTo EF L 0 200 1 true []).1
/-- Then agent 5 takes Alice out of the group once more. -/
noncomputable def again : Keyhive := (half.revokeFromGroup EF L 200 1 true []).1

theorem half_ok : isOk ((clubbed EF).revokeFromGroupUpTo EF L 0 200 1 true []).2 = true := by decide +kernel
theorem again_ok : isOk (half.revokeFromGroup EF L 200 1 true []).2 = true := by decide +kernel

-- The document is still to be gone through; the complete call changes it and Alice is out of the group already.
example : 300 ∉ (AMap.keys (clubbed EF).docs).take 0 ∧ 300 ∉ (AMap.keys (clubbed EF).docs).drop 1 ∧
    treeOf ((clubbed EF).revokeFromGroup EF L 200 1 true []).1 300 ≠ treeOf (clubbed EF) 300 ∧
    (AMap.get half.groups 200).map (fun g => AMap.get g.members 1) = some none := by
  refine ⟨by decide +kernel, by decide +kernel, ?_, by decide +kernel⟩
  intro h
  have h1 : ((treeOf ((clubbed EF).revokeFromGroup EF L 200 1 true []).1 300).map (fun c => c.tree.containsId 1)) = some false := by
    decide +kernel
  have h2 : ((treeOf (clubbed EF) 300).map (fun c => c.tree.containsId 1)) = some true := by decide +kernel
  rw [h, h2] at h1
  cases h1

/-- C144 fails: agent 5 takes Alice out of a group that may read a document, and the call is given up when the group has been changed.
Agent 5 calls again, which succeeds and hands back no operation. Alice does not count as a member of the document, and reads what
agent 5 writes in it after that. -/
theorem C144_fails : ∃ (E : Env) (L L' : Local) (w w1 w2 v' k : Keyhive) (ops : List SOp) (d2 : Doc) (tm2 : AMap Id (Agent × Access))
    (e : EncContent) (o : Option SOp) (key : AppKey), (∀ i, Function.Injective (E.hashCgka i)) ∧ Fleet E w ∧ OnlyDevice E 1 k ∧
    w.revokeFromGroupUpTo E L 0 200 1 true [] = (w1, .ok ops) ∧ w1.revokeFromGroup E L 200 1 true [] = (w2, .ok []) ∧
    AMap.get w2.docs 300 = some d2 ∧ transitiveMembers w2.world [300] d2.group = .ok tm2 ∧ AMap.get tm2 1 = none ∧
    w2.encryptContent E L' 300 7 8 42 = (v', .ok (e, o)) ∧ (k.decryptContent E 300 e).2 = .ok (42, key) := by
  have hm1 : (AMap.get again.docs 300).bind (fun d => (transitiveMembers again.world [300] d.group).toOption.map (fun tm => AMap.get tm 1)) =
      some none := by decide +kernel
  have hread : ((again.encryptContent EF L2 300 7 8 42).2.toOption.bind (fun p => (alice.decryptContent EF 300 p.1).2.toOption.map Prod.fst)) =
      some 42 := by decide +kernel
  have hnil : (half.revokeFromGroup EF L 200 1 true []).2.toOption = some [] := by decide +kernel
  obtain ⟨d1, hd1, hm1⟩ := Option.bind_eq_some_iff.1 hm1
  obtain ⟨tm1, ht1, hm1⟩ := Option.map_eq_some_iff.1 hm1
  have ok_of : ∀ {α ε : Type} {x : Except ε α} {a : α}, x.toOption = some a → x = .ok a := by
    intro α ε x a h
    cases x with
    | error e => cases h
    | ok b => cases h; rfl
  obtain ⟨ops, hops⟩ : ∃ ops, (clubbed EF).revokeFromGroupUpTo EF L 0 200 1 true [] = (half, .ok ops) := by
    have hrv := half_ok
    unfold half
    cases hr : (clubbed EF).revokeFromGroupUpTo EF L 0 200 1 true [] with
    | mk k' r =>
      rw [hr] at hrv
      cases r with
      | error err => cases hrv
      | ok ops => exact ⟨ops, rfl⟩
  cases hw : again.encryptContent EF L2 300 7 8 42 with
  | mk v' r =>
    rw [hw] at hread
    cases r with
    | error err => cases hread
    | ok p =>
      obtain ⟨e, o⟩ := p
      cases hdec : (alice.decryptContent EF 300 e).2 with
      | error err => simp [hdec, Except.toOption] at hread
      | ok q =>
        obtain ⟨x, key⟩ := q
        simp [hdec, Except.toOption] at hread
        subst hread
        exact ⟨EF, L, L2, clubbed EF, half, again, v', alice, ops, d1, tm1, e, o, key, EF_inj, clubbed_fleet hcF, alice_only, hops,
          Prod.ext rfl (ok_of hnil), hd1, ok_of ht1, hm1, hw, hdec⟩

end Verif.Keyhive.GivenUpProps
