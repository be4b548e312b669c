import Verif.Keyhive.Sample
import Verif.Keyhive.GroupsLemmas
import Verif.Group.Sample

/-! # A device that makes calls of its own -/

namespace Verif.Keyhive.Sample

open Verif.Group Verif.Cgka Verif.BeeKem

/-- Signatures of membership operations: the thousands are the signer. -/
def sigOf : Op → Nat
  | .dlg d => d.issuer * 1000 + d.delegate.id + (if d.subject = 200 then 400 else 0)
  | .rev r => r.issuer * 1000 + 700 + r.revoke.delegate.id

/-- A signer for all keys. -/
def sg (o : Op) : Option Nat := if sigOf o / 1000 = o.issuer then some (sigOf o) else none

/-- Signer of group-key operations. -/
def signC (_ : Id) (p : Payload) : Res SOp := .ok ⟨p, 5, match p with
  | .add id _ _ _ _ => 5000 + id
  | .update _ _ _ => 5900
  | .remove id _ _ _ => 5500 + id⟩

/-- What agent 5 uses. -/
def L : Local := ⟨sg, signC, fun _ i _ => .ok ⟨11 * i⟩, fun n => 700 + n⟩

/-- Document 300 starts a key tree. -/
def t0 : SOp := ⟨.add 300 ⟨700⟩ 0 [] [], 5, 5300⟩
/-- Agent 5 joins it. -/
def t1 : SOp := ⟨.add 5 ⟨55⟩ 1 [0] [0], 5, 5005⟩
/-- The secret it sends. -/
def boxed : EncryptedSecret := { key := { lo := 55, hi := 700 }, plain := 701, pairedPk := ⟨55⟩ }
/-- And updates. -/
def t2 : SOp :=
  let store := { versions := [{ pk := ⟨701⟩, sk := [(.leaf 1, boxed), (.leaf 0, boxed)], encrypterPk := ⟨700⟩ }] }
  ⟨.update 300 { leafId := 300, leafIdx := 0, leafPk := .share ⟨700⟩, path := [(0, store)], removedKeys := [⟨700⟩] } [1], 5, 5900⟩
/-- Alice joins. -/
def t3 : SOp := ⟨.add 1 ⟨11⟩ 2 [2] [1], 5, 5001⟩
/-- And is removed. -/
def t4 : SOp := ⟨.remove 1 2 [] [3], 5, 5501⟩

/-- The digest of these operations. -/
noncomputable def hcL : SOp → Nat := tableH [t0, t1, t2, t3, t4]
/-- Digests and signatures for the calls below. -/
noncomputable def EL : Env := env hcL

theorem EL_noClash : EL.NoClash := env_noClash hcL

theorem sg_signs (hc : SOp → Nat) : Signs (env hc) sg := by
  intro o s h
  unfold sg at h
  split at h
  · rename_i hi
    cases h
    cases o with
    | dlg d => cases d <;> exact decide_eq_true hi
    | rev r => cases r <;> exact decide_eq_true hi
  · cases h

theorem L_signs : L.Honest EL := ⟨sg_signs hcL, fun _ _ _ h => by cases h; rfl⟩

theorem L_good (doc : Id) : GoodSigner (L.signCgka doc) := fun _ => ⟨_, rfl, rfl⟩

/-- Agent 5 creates group 200. -/
noncomputable def m1 : Keyhive := (k0.generateGroup EL sg 200 []).1
/-- And document 300. -/
noncomputable def m2 : Keyhive := (m1.generateDoc EL L sg 300 [] [1]).1
/-- The group may relay the document. -/
noncomputable def m3 : Keyhive := (m2.addMemberToDoc EL L 300 ⟨.group, 200⟩ .relay []).1
/-- Alice becomes a reading member of the group. -/
noncomputable def m4 : Keyhive := (m3.addMemberToGroup EL L 200 ⟨.individual, 1⟩ .read []).1
/-- Alice becomes a reading member of the document itself. -/
noncomputable def n3 : Keyhive := (m2.addMemberToDoc EL L 300 ⟨.individual, 1⟩ .read []).1

theorem reach_m1 : Reach EL m1 := .call (.newGroup sg 200 []) (.start reg [(⟨55⟩, 55)]) (sg_signs hcL)
theorem reach_m2 : Reach EL m2 := .call (.newDoc L sg 300 [] [1]) reach_m1 ⟨sg_signs hcL, L_signs⟩
theorem reach_m3 : Reach EL m3 := .call (.addToDoc L 300 ⟨.group, 200⟩ .relay []) reach_m2 L_signs
theorem reach_m4 : Reach EL m4 := .call (.addToGroup L 200 ⟨.individual, 1⟩ .read []) reach_m3 L_signs
theorem reach_n3 : Reach EL n3 := .call (.addToDoc L 300 ⟨.individual, 1⟩ .read []) reach_m2 L_signs

/-- The key tree of a document, for evaluation. -/
def treeOf (k : Keyhive) (i : Id) : Option Cgka := (AMap.get k.docs i).bind Doc.cgka

/-- All delegations that make someone a member somewhere. -/
def allDlgs (k : Keyhive) : List Dlg := (k.world.map (fun p => Group.Sample.memberDlgs p.2)).flatten

/-- Different ids for different groups, different signatures for different delegations, one kind of agent for one id. -/
def neat (k : Keyhive) (a : Agent) : Bool :=
  decide ((AMap.keys k.world).Nodup) &&
  (allDlgs k).all (fun d => (decide (d.delegate.id ≠ a.id) || decide (d.delegate = a)) && (allDlgs k).all (fun d' =>
    (decide (d.sig ≠ d'.sig) || decide (d = d')) && (decide (d.delegate.id ≠ d'.delegate.id) || decide (d.delegate = d'.delegate))))

theorem mem_allDlgs {k : Keyhive} {i : Id} {g : Group} {m : Id} {d : Dlg} (hi : AMap.get k.world i = some g) (h : g.MemberBy m d) : d ∈ allDlgs k :=
  List.mem_flatten.2 ⟨_, List.mem_map.2 ⟨(i, g), AMap.mem_of_get hi, rfl⟩, Group.Sample.mem_memberDlgs h⟩

theorem neat_kind {k : Keyhive} {a : Agent} (h : neat k a = true) : OneKind k.world a := by
  simp only [neat, Bool.and_eq_true, List.all_eq_true, Bool.or_eq_true, decide_eq_true_eq] at h
  have hw : ∀ b, Walk k.world a b → b = a ∨ ∃ d ∈ allDlgs k, d.delegate = b := by
    intro b hb
    cases hb with
    | refl => exact .inl rfl
    | step _ _ hg hm => exact .inr ⟨_, mem_allDlgs hg hm, rfl⟩
  intro b c hb hc he
  rcases hw b hb with rfl | ⟨d, hd, rfl⟩ <;> rcases hw c hc with rfl | ⟨d', hd', rfl⟩
  · rfl
  · exact ((h.2 d' hd').1.resolve_left (by simp [he])).symm
  · exact (h.2 d hd).1.resolve_left (by simp [he])
  · exact ((h.2 d hd).2 d' hd').2.resolve_left (by simp [he])

theorem neat_sound {E : Env} {k : Keyhive} {a : Agent} (hk : Reach E k) (h : neat k a = true) {i : Id} {doc : Doc}
    (hd : AMap.get k.docs i = some doc) : Sound k.world doc.group := by
  have hk := reach_kept hk
  simp only [neat, Bool.and_eq_true, List.all_eq_true, Bool.or_eq_true, decide_eq_true_eq] at h
  have hin : (i, doc.group) ∈ k.world :=
    List.mem_append_right _ (List.mem_map.2 ⟨(i, doc), AMap.mem_of_get hd, rfl⟩)
  have har : ∀ d, Around k.world doc.group d → d ∈ allDlgs k := by
    rintro d (⟨m, hm⟩ | ⟨i, h, m, e1, e2⟩)
    · exact mem_allDlgs (AMap.get_of_mem h.1 hin) hm
    · exact mem_allDlgs e1 e2
  exact ⟨h.1, (hk.docs hd).2.2.tidy, fun i h hh => hk.tidy hh,
    fun d d' e1 e2 he => ((h.2 d (har d e1)).2 d' (har d' e2)).1.resolve_left (by simp [he]),
    fun d d' e1 e2 he => ((h.2 d (har d e1)).2 d' (har d' e2)).2.resolve_left (by simp [he])⟩

theorem neat_sound' {E : Env} {k : Keyhive} {a : Agent} (hk : Reach E k) (h : neat k a = true) {i : Id} {g : Group}
    (hd : AMap.get k.world i = some g) : Sound k.world g := by
  have hk := reach_kept hk
  simp only [neat, Bool.and_eq_true, List.all_eq_true, Bool.or_eq_true, decide_eq_true_eq] at h
  have har : ∀ d, Around k.world g d → d ∈ allDlgs k := by
    rintro d (⟨m, hm⟩ | ⟨i, h, m, e1, e2⟩)
    · exact mem_allDlgs hd hm
    · exact mem_allDlgs e1 e2
  exact ⟨h.1, hk.tidy hd, fun i h hh => hk.tidy hh,
    fun d d' e1 e2 he => ((h.2 d (har d e1)).2 d' (har d' e2)).1.resolve_left (by simp [he]),
    fun d d' e1 e2 he => ((h.2 d (har d e1)).2 d' (har d' e2)).2.resolve_left (by simp [he])⟩

/-- A call returned a result. -/
def isOk {α : Type} : Except Err α → Bool
  | .ok _ => true
  | .error _ => false

end Verif.Keyhive.Sample
