import Verif.Keyhive.LostLemmas
import Verif.Keyhive.SpreadProps

/-!
# Who a revocation leaves without access cannot read what is written afterwards (C52 for groups, C124)

The vocabulary is in `Verif.Keyhive.{Spec, PlaceSpec, HeldSpec, FleetSpec}`, `Verif.Cgka.{TogetherSpec, CutOffSpec}`.
-/

namespace Verif.Keyhive

open Verif.Group Verif.Cgka Verif.BeeKem

variable {E : Env} {K : Sk → Prop}

namespace LostSample

open Verif.Keyhive.Sample FleetSample

/-- Agent 5 has made group 200, which may relay document 300, and of which Alice is a member. Alice may also read the document. -/
noncomputable def twice : Keyhive :=
  (((((k0.generateGroup EF sg 200 []).1.generateDoc EF L sg 300 [] [1]).1.addMemberToDoc EF L 300 ⟨.group, 200⟩ .relay []).1.addMemberToGroup
    EF L 200 ⟨.individual, 1⟩ .relay []).1.addMemberToDoc EF L 300 ⟨.individual, 1⟩ .read []).1
theorem twice_fleet : Fleet EF twice :=
  .call (.addToDoc L 300 ⟨.individual, 1⟩ .read []) (.call (.addToGroup L 200 ⟨.individual, 1⟩ .relay []) (.call (.addToDoc L 300 ⟨.group, 200⟩ .relay [])
    (.call (.newDoc L sg 300 [] [1]) (.call (.newGroup sg 200 []) (.start reg [(⟨55⟩, 55)] rfl (Verif.Cgka.Sample.honest_one 55)) trivial
      (sg_signs hcF) trivial) trivial ⟨sg_signs hcF, L_honest hcF⟩ L_good) trivial (L_honest hcF) L_good) trivial (L_honest hcF) L_good)
    trivial (L_honest hcF) L_good
/-- Agent 5 takes away that Alice may read. -/
noncomputable def once : Keyhive := (twice.revokeFromDoc EF L 300 1 true []).1

/-- The members of the document are individuals other than `j`. -/
def apart (k : Keyhive) (did j : Id) : Bool :=
  (AMap.get k.docs did).any (fun d => (Group.Sample.memberDlgs d.group).all (fun dl => !dl.delegate.isMembered && decide (dl.delegate.id ≠ j)))

theorem behind_leaf {W : World} {a : Agent} {j : Id} (ha : a.isMembered = false) (h : Behind W a j) : a.id = j := by
  obtain ⟨b, hw, _, rfl⟩ := h
  have : ∀ {b}, Walk W a b → b = a := by
    intro b hb
    induction hb with
    | refl => rfl
    | step _ h2 _ _ ih => rw [ih, ha] at h2; cases h2
  rw [this hw]

/-- Group `gid` is among the members of the document, and `j` is not. -/
def without (k : Keyhive) (did gid j : Id) : Bool :=
  (AMap.get k.docs did).any (fun d => decide (d.group.id ≠ j) && (match transitiveMembers k.world [did] d.group with
    | .ok tm => AMap.contains tm gid && decide (AMap.get tm j = none)
    | .error _ => false))

theorem without_spec {k : Keyhive} {did gid j : Id} (h : without k did gid j = true) {d : Doc} (hd : AMap.get k.docs did = some d)
    (hS : Sound k.world d.group) : Within k.world d.group gid ∧
      ¬ ∃ b links, Path k.world d.group b links ∧ b.isMembered = false ∧ b.id = j := by
  unfold without at h
  rw [hd] at h
  simp only [Option.any_some, Bool.and_eq_true, decide_eq_true_eq] at h
  obtain ⟨h0, h⟩ := h
  split at h
  · rename_i tm htm
    obtain ⟨t1, t2⟩ := transitive_spec hS htm
    rw [Bool.and_eq_true, decide_eq_true_eq, AMap.contains_iff, AMap.mem_keys_iff] at h
    constructor
    · cases hg : AMap.get tm gid with
      | none => exact (h.1 hg).elim
      | some p =>
        obtain ⟨h1, links, h2, _⟩ := t1 gid p.1 p.2 hg
        exact ⟨p.1, links, h2, h1⟩
    · rintro ⟨b, links, hp, _, rfl⟩
      exact t2 b links hp (fun e => h0 e.symm) h.2
  · cases h

end LostSample

namespace LostProps

/-- **C52** for a member revoked from a group, the other half: an individual behind the revoked member who is then no longer among the members
of a document the group is in is taken out of the key group of the document, or is all that is left of it. Missing: operations waiting to be
replayed, and histories with several first operations or with a removal concurrent to something else (the replay may fail, C16, and the error
is ignored, keyhive.rs:623-631). -/
theorem C52_revoke_from_group_lost_partial (hH : ∀ i, Function.Injective (E.hashCgka i)) {k k' : Keyhive} (hk : Fleet E k) {L : Local}
    (hs : ∀ doc, GoodSigner (L.signCgka doc)) {gid member : Id} {retain : Bool} {content : Content} {ops : List SOp}
    {g : Group} (hno : AMap.get k.docs gid = none) (hg : AMap.get k.groups gid = some g)
    (h : k.revokeFromGroup E L gid member retain content = (k', .ok ops)) (hK : ∀ d, g.MemberBy member d → OneKind k.world d.delegate)
    (hS : ∀ i doc, AMap.get k'.docs i = some doc → Sound k'.world doc.group)
    {i : Id} {doc doc' : Doc} {c c' : Cgka} (hd : AMap.get k.docs i = some doc) (hc : doc.cgka = some c) (hcur : Current c)
    (hd' : AMap.get k'.docs i = some doc') (hc' : doc'.cgka = some c') (h1 : OneRoot c') (h2 : NoConcurrentRemoval c') {j : Id} {dl : Dlg}
    (hm : g.MemberBy member dl) (hb : Behind k.world dl.delegate j) (hin : Within k'.world doc'.group gid)
    (hout : ¬ ∃ b links, Path k'.world doc'.group b links ∧ b.isMembered = false ∧ b.id = j) :
    c'.tree.containsId j = false ∨ ∀ j', c'.tree.containsId j' = true → j' = j := by
  have ht := fleet_trusted hH hk hd hc
  obtain ⟨d2, c2, a1, a2, a3⟩ := revokeFromGroup_cuts hH hs h i doc c hd hc ht hcur
  rw [hd'] at a1
  cases a1
  rw [hc'] at a2
  cases a2
  have ho : Orderly c' := by
    have g' := (reachOk_inv (hH i) (trusted_ok a3.trusted)).graph
    exact ⟨(oneRoot_iff g').1 h1, ReplayProps.serial_of g' h2⟩
  have hgone := revokeFromGroup_gone hH hk hs hno hg h hK hS hd hc hcur hd' hc' ho hm hb hin hout
  cases hj : c'.tree.containsId j with
  | false => exact .inl rfl
  | true => exact .inr (hgone hj)

-- That the hypotheses can be met is shown with `C124_group_partial` below, whose hypotheses include these.

/-- **C124** for revocations from a document. The device `w` revokes a member. Individual `id` was behind the member and in the key group, and is
behind none of the members left. Then `w` writes in the document. A device `k` whose secrets are, as far as `w` knows, only ones given to `id`
cannot read it, even with all operations. For the conditions on the history see C80. Missing: histories with operations concurrent to an
addition or a removal, and operations waiting at the revocation. -/
theorem C124_document_partial (hp : K publicSk) (hH : ∀ i, Function.Injective (E.hashCgka i)) {w w1 v' k : Keyhive} (hw : Fleet E w) {L : Local}
    (hL : L.Honest E) (hs : ∀ doc, GoodSigner (L.signCgka doc)) {did member : Id} {retain : Bool} {content : Content} {ops : List SOp}
    (h : w.revokeFromDoc E L did member retain content = (w1, .ok ops)) {d d1 : Doc} {c : Cgka} (hd : AMap.get w.docs did = some d)
    (hc : d.cgka = some c) (hcur : Current c) (hd1 : AMap.get w1.docs did = some d1)
    (hone : ∀ dl, d.group.MemberBy member dl → OneKind w.world dl.delegate)
    (hone1 : (∀ m dl, d1.group.MemberBy m dl → OneKind w1.world dl.delegate) ∧
      ∀ m dl dl', d1.group.MemberBy m dl → d1.group.MemberBy m dl' → dl.delegate = dl'.delegate)
    {id : MemberId} (hin : c.tree.containsId id = true) {dl : Dlg} (hm : d.group.MemberBy member dl) (hb : Behind w.world dl.delegate id)
    (hout : ¬ ∃ m dl, d1.group.MemberBy m dl ∧ Behind w1.world dl.delegate id)
    {L' : Local} (hL' : L'.Honest E) (hs' : ∀ doc, GoodSigner (L'.signCgka doc)) {r ps x : Nat} {e : EncContent} {o : Option SOp}
    (he : w1.encryptContent E L' did r ps x = (v', .ok (e, o))) {da db : Doc} {a b : Cgka}
    (hda : AMap.get v'.docs did = some da) (hca : da.cgka = some a) (h1 : ChangesApart a) (h2 : UpdatesInTurn a)
    (hk : Fleet E k) (hK : Holder E K k) (hdb : AMap.get k.docs did = some db) (hcb : db.cgka = some b)
    (hkn : ∀ op, HasKeyOp E v' did op → HasKeyOp E k did op) (hf : FreshKeys b) (hdk : DistinctKeys b) (hu : ∀ s, K s → OnlyOf a id s)
    (res : Nat × AppKey) : (k.decryptContent E did e).2 ≠ .ok res := by
  obtain ⟨d2, c2, a1, a2, a3⟩ := KeyTreeProps.C52_revoke_from_document_partial (fleet_reach hw) hd hc hcur h hone (by
    intro doc' hdoc'
    rw [hd1] at hdoc'
    cases hdoc'
    exact hone1)
  rw [hd1] at a1
  cases a1
  have hout' : c2.tree.containsId id = false := by
    cases hh : c2.tree.containsId id with
    | false => rfl
    | true => exact (((a3 id).1 hh).2 ⟨⟨dl, hm, hb⟩, hout⟩).elim
  exact ShutProps.C121_next_write_partial hp hH hw hL hs h hd hc hcur hd1 a2 hin hout' hL' hs' he hda hca h1 h2 hk hK hdb hcb hkn hf hdk hu res

-- Agent 5 revokes Alice, who is then behind none of the members, and writes; Alice's device, with all operations, cannot read it.
open LostSample HeldSample Verif.Keyhive.Sample Verif.Keyhive.FleetSample Verif.Cgka.CutOffProps.Example in
example : ∃ ops e o, (made EH 1).revokeFromDoc EH L 300 1 true [] = (gone, .ok ops) ∧ gone.encryptContent EH L2 300 7 8 42 = (after, .ok (e, o)) ∧
    ∀ res, (removed.decryptContent EH 300 e).2 ≠ .ok res := by
  obtain ⟨d, f1, f2⟩ := doc_of removed_has
  obtain ⟨d', f3, f4⟩ := doc_of after_has
  obtain ⟨dm, f5, f6⟩ := doc_of ShutSample.made_has
  obtain ⟨dg, f7, f8⟩ := doc_of ShutSample.gone_has
  obtain ⟨e, o, he⟩ := write_some (E := EH) (k := gone) (L := L2) (by decide +kernel)
  obtain ⟨ops, hops⟩ : ∃ ops, (made EH 1).revokeFromDoc EH L 300 1 true [] = (gone, .ok ops) := by
    have h : isOk ((made EH 1).revokeFromDoc EH L 300 1 true []).2 = true := by decide +kernel
    unfold gone
    cases hr : (made EH 1).revokeFromDoc EH L 300 1 true [] with
    | mk k' r =>
      rw [hr] at h
      cases r with
      | error err => cases h
      | ok ops => exact ⟨ops, rfl⟩
  have hkinds : ∀ dl ∈ allDlgs (made EH 1), neat (made EH 1) dl.delegate = true := by decide +kernel
  have hkinds' : ∀ dl ∈ allDlgs gone, neat gone dl.delegate = true := by decide +kernel
  have hworld : AMap.get (made EH 1).world 300 = some dm.group := by
    rw [get_world, show AMap.get (made EH 1).groups 300 = none by decide +kernel, f5]; rfl
  have hworld' : AMap.get gone.world 300 = some dg.group := by
    rw [get_world, show AMap.get gone.groups 300 = none by decide +kernel, f7]; rfl
  have hS : Sound gone.world dg.group := neat_sound (fleet_reach gone_fleet) (a := ⟨.individual, 1⟩) (by decide +kernel) f7
  have hmem : (AMap.get (made EH 1).docs 300).any (fun d => ((AMap.get d.group.members 1).getD []).any (fun dl => decide (dl.delegate = ⟨.individual, 1⟩))) = true := by
    decide +kernel
  rw [f5] at hmem
  obtain ⟨dl, hdl, hwho⟩ := List.any_eq_true.1 (show ((AMap.get dm.group.members 1).getD []).any _ = true from hmem)
  have hby : dm.group.MemberBy 1 dl := by
    cases hg : AMap.get dm.group.members 1 with
    | none => rw [hg] at hdl; cases hdl
    | some ds => rw [hg] at hdl; exact ⟨ds, hg, hdl⟩
  have hap : apart gone 300 1 = true := by decide +kernel
  unfold apart at hap
  rw [f7] at hap
  simp only [Option.any_some, List.all_eq_true, Bool.and_eq_true, Bool.not_eq_true', decide_eq_true_eq] at hap
  refine ⟨ops, e, o, hops, he, fun res => C124_document_partial (K := keys) (id := 1) (.inl rfl) EH_inj (made_fleet hcH 1) (L_honest hcH) L_good hops
    f5 f6 (by decide +kernel) f7 (fun dl h => neat_kind (hkinds dl (mem_allDlgs hworld h)))
    ⟨fun m dl h => neat_kind (hkinds' dl (mem_allDlgs hworld' h)), fun m dl dl' h h' => hS.kind dl dl' (.inl ⟨m, h⟩) (.inl ⟨m, h'⟩)
      (by rw [hS.self.2.2 m dl h, hS.self.2.2 m dl' h'])⟩ (by decide +kernel) hby ⟨⟨.individual, 1⟩, by rw [of_decide_eq_true hwho]; exact .refl, rfl, rfl⟩
    ?_ (L2_honest _) L2_good he f3 f4 (changes_of (by decide +kernel))
    (turns_of (by decide +kernel)) removed_fleet (withKey_holder _) f1 f2 (all_of after_has (by decide +kernel)) (fresh_of (by decide +kernel))
    (distinct_of (by decide +kernel)) ?_ res⟩
  · rintro ⟨m, dl, h1, h2⟩
    obtain ⟨e1, e2⟩ := hap dl (Group.Sample.mem_memberDlgs h1)
    exact e2 (behind_leaf e1 h2)
  · intro s hs y o' hy hu
    have hl : users ((treeOf after 300).get after_has) (fun s => decide (s = 0 ∨ s = 11)) = [(3, t3)] := by decide +kernel
    have := users_of (p := fun s => decide (s = 0 ∨ s = 11)) (decide_eq_true hs) hy hu
    rw [hl] at this
    simp only [List.mem_singleton, Prod.mk.injEq] at this
    rw [this.2]; rfl

/-- **C124** for revocations from a group. Individual `id` was behind the revoked member and in the key group of a document the group is in. After
the revocation the individual is not among the members of the document, and the key group has other members. Then `w` writes in the document.
A device `k` whose secrets are, as far as `w` knows, only ones given to `id` cannot read it. Missing: as for `C124_document_partial`. -/
theorem C124_group_partial (hp : K publicSk) (hH : ∀ i, Function.Injective (E.hashCgka i)) {w w1 v' k : Keyhive} (hw : Fleet E w) {L : Local}
    (hL : L.Honest E) (hs : ∀ doc, GoodSigner (L.signCgka doc)) {gid member : Id} {retain : Bool} {content : Content} {ops : List SOp} {g : Group}
    (hno : AMap.get w.docs gid = none) (hg : AMap.get w.groups gid = some g)
    (h : w.revokeFromGroup E L gid member retain content = (w1, .ok ops)) (hone : ∀ dl, g.MemberBy member dl → OneKind w.world dl.delegate)
    (hS : ∀ i doc, AMap.get w1.docs i = some doc → Sound w1.world doc.group)
    {did : Id} {d d1 : Doc} {c c1 : Cgka} (hd : AMap.get w.docs did = some d)
    (hc : d.cgka = some c) (hcur : Current c) (hd1 : AMap.get w1.docs did = some d1) (hc1 : d1.cgka = some c1)
    {id : MemberId} (hin : c.tree.containsId id = true) {dl : Dlg} (hm : g.MemberBy member dl) (hb : Behind w.world dl.delegate id)
    (hgr : Within w1.world d1.group gid) (hout : ¬ ∃ b links, Path w1.world d1.group b links ∧ b.isMembered = false ∧ b.id = id)
    {j : Id} (hj : j ≠ id) (hoth : c1.tree.containsId j = true)
    {L' : Local} (hL' : L'.Honest E) (hs' : ∀ doc, GoodSigner (L'.signCgka doc)) {r ps x : Nat} {e : EncContent} {o : Option SOp}
    (he : w1.encryptContent E L' did r ps x = (v', .ok (e, o))) {da db : Doc} {a b : Cgka}
    (hda : AMap.get v'.docs did = some da) (hca : da.cgka = some a) (h1 : ChangesApart a) (h2 : UpdatesInTurn a)
    (hk : Fleet E k) (hK : Holder E K k) (hdb : AMap.get k.docs did = some db) (hcb : db.cgka = some b)
    (hkn : ∀ op, HasKeyOp E v' did op → HasKeyOp E k did op) (hf : FreshKeys b) (hdk : DistinctKeys b) (hu : ∀ s, K s → OnlyOf a id s)
    (res : Nat × AppKey) : (k.decryptContent E did e).2 ≠ .ok res := by
  have hw1 := SpreadProps.revoke_fleet hw hL hs h
  have t1 := fleet_trusted hH hw1 hd1 hc1
  have hv' : Fleet E v' := by
    have := Fleet.call (.encrypt L' did r ps x) hw1 trivial hL' hs'
    have hr : (Call.encrypt L' did r ps x).run E w1 = v' := by
      show (w1.encryptContent E L' did r ps x).1 = v'
      rw [he]
    rwa [hr] at this
  have ta := fleet_trusted hH hv' hda hca
  have tb := fleet_trusted hH hk hdb hcb
  have ga := (reachOk_inv (hH did) (trusted_ok ta)).graph
  have T := together_of ga h1 h2 (fresh_down (hH did) tb ta (known_of hdb hcb hda hca ga hkn) hf)
  have hO : Orderly c1 := by
    refine Orderly.sub (hH did) t1 ta ?_ ⟨together_oneRoot (hH did) ta T, T.serial⟩
    refine known_of hda hca hd1 hc1 (reachOk_inv (hH did) (trusted_ok t1)).graph ?_
    rintro op ⟨d', c', g1, g2, g3⟩
    obtain ⟨d0, a0, a', s, f1, f2, f3, -, f5⟩ := encrypt_tree he
    rw [g1] at f1
    cases f1
    rw [g2] at f2
    cases f2
    refine ⟨_, _, f5, rfl, ?_⟩
    have := (has_encrypt (hH did) (sign := L'.signCgka did) c' L'.gen 0 r ps op).2 (.inl g3)
    rw [f3] at this
    exact this
  have hout' : c1.tree.containsId id = false := by
    cases hh : c1.tree.containsId id with
    | false => rfl
    | true => exact (hj (revokeFromGroup_gone hH hw hs hno hg h hone hS hd hc hcur hd1 hc1 hO hm hb hgr hout hh j hoth)).elim
  exact SpreadProps.C123_next_write_partial hp hH hw hL hs h hd hc hcur hd1 hc1 hin hout' hL' hs' he hda hca h1 h2 hk hK hdb hcb hkn hf hdk hu res

-- Agent 5 takes Alice out of the group and writes in the document; Alice's device, with all operations, cannot read it.
open LostSample SpreadSample HeldSample Verif.Keyhive.Sample Verif.Keyhive.FleetSample Verif.Cgka.CutOffProps.Example in
example : ∃ ops e o, (clubbed EH).revokeFromGroup EH L 200 1 true [] = (left EH, .ok ops) ∧
    (left EH).encryptContent EH L2 300 7 8 42 = (later, .ok (e, o)) ∧ ∀ res, (removed.decryptContent EH 300 e).2 ≠ .ok res := by
  obtain ⟨d, f1, f2⟩ := doc_of removed_has
  obtain ⟨d', f3, f4⟩ := doc_of later_has
  obtain ⟨dm, f5, f6⟩ := doc_of clubbedH_has
  obtain ⟨dg, f7, f8⟩ := doc_of left_has
  obtain ⟨e, o, he⟩ := write_some (E := EH) (k := left EH) (L := L2) (by decide +kernel)
  obtain ⟨ops, hops⟩ : ∃ ops, (clubbed EH).revokeFromGroup EH L 200 1 true [] = (left EH, .ok ops) := by
    have h : isOk ((clubbed EH).revokeFromGroup EH L 200 1 true []).2 = true := by decide +kernel
    unfold left
    cases hr : (clubbed EH).revokeFromGroup EH L 200 1 true [] with
    | mk k' r =>
      rw [hr] at h
      cases r with
      | error err => cases h
      | ok ops => exact ⟨ops, rfl⟩
  have hmem : (AMap.get (clubbed EH).groups 200).any (fun g => ((AMap.get g.members 1).getD []).any (fun dl => decide (dl.delegate = ⟨.individual, 1⟩))) = true := by
    decide +kernel
  cases hg : AMap.get (clubbed EH).groups 200 with
  | none => rw [hg] at hmem; cases hmem
  | some g =>
    rw [hg] at hmem
    obtain ⟨dl, hdl, hwho⟩ := List.any_eq_true.1 (show ((AMap.get g.members 1).getD []).any _ = true from hmem)
    have hby : g.MemberBy 1 dl := by
      cases hm : AMap.get g.members 1 with
      | none => rw [hm] at hdl; cases hdl
      | some ds => rw [hm] at hdl; exact ⟨ds, hm, hdl⟩
    have hkinds : ∀ dl ∈ allDlgs (clubbed EH), neat (clubbed EH) dl.delegate = true := by decide +kernel
    have hworld : AMap.get (clubbed EH).world 200 = some g := by
      rw [get_world, hg]; rfl
    have hleft : Fleet EH (left EH) := SpreadProps.revoke_fleet (clubbed_fleet hcH) (L_honest hcH) L_good hops
    have hS : ∀ i doc, AMap.get (left EH).docs i = some doc → Sound (left EH).world doc.group :=
      fun _ _ h => neat_sound (fleet_reach hleft) (a := ⟨.individual, 1⟩) (by decide +kernel) h
    obtain ⟨hin, hout⟩ := without_spec (k := left EH) (did := 300) (gid := 200) (j := 1) (by decide +kernel) f7 (hS _ _ f7)
    refine ⟨ops, e, o, hops, he, fun res => C124_group_partial (K := keys) (id := 1) (j := 5) (.inl rfl) EH_inj (clubbed_fleet hcH) (L_honest hcH) L_good
      (by decide +kernel) hg hops (fun dl h => neat_kind (hkinds dl (mem_allDlgs hworld h))) hS f5 f6 (by decide +kernel) f7 f8 (by decide +kernel) hby
      ⟨⟨.individual, 1⟩, by rw [of_decide_eq_true hwho]; exact .refl, rfl, rfl⟩ hin hout (by decide) (by decide +kernel) (L2_honest _) L2_good he f3 f4
      (changes_of (by decide +kernel)) (turns_of (by decide +kernel)) removed_fleet (withKey_holder _) f1 f2 (all_of later_has (by decide +kernel))
      (fresh_of (by decide +kernel)) (distinct_of (by decide +kernel)) ?_ res⟩
    intro s hs y o' hy hu
    have hl : users ((treeOf later 300).get later_has) (fun s => decide (s = 0 ∨ s = 11)) = [(3, t3)] := by decide +kernel
    have := users_of (p := fun s => decide (s = 0 ∨ s = 11)) (decide_eq_true hs) hy hu
    rw [hl] at this
    simp only [List.mem_singleton, Prod.mk.injEq] at this
    rw [this.2]; rfl

open LostSample ShutSample HeldSample PlaceSample Verif.Keyhive.Sample Verif.Keyhive.FleetSample in
/-- Taking away reading is not enough when something less is left. Alice may read the document, and is also a member of a group that may only
relay it. Agent 5 revokes Alice from the document, and the device then counts Alice as someone who may relay the document but not read it. Agent 5
writes in the document, and Alice's device reads it. All devices run the library. -/
theorem C124_fails : ∃ (E : Env) (L L' : Local) (w w1 v' k : Keyhive) (ops : List SOp) (d1 : Doc) (tm1 : AMap Id (Agent × Access)) (e : EncContent)
    (o : Option SOp) (key : AppKey), (∀ i, Function.Injective (E.hashCgka i)) ∧ Fleet E w ∧ OnlyDevice E 1 k ∧
    w.revokeFromDoc E L 300 1 true [] = (w1, .ok ops) ∧
    AMap.get w1.docs 300 = some d1 ∧ transitiveMembers w1.world [300] d1.group = .ok tm1 ∧ AMap.get tm1 1 = some (⟨.individual, 1⟩, .relay) ∧
    w1.encryptContent E L' 300 7 8 42 = (v', .ok (e, o)) ∧ (k.decryptContent E 300 e).2 = .ok (42, key) := by
  have hrv : isOk (twice.revokeFromDoc EF L 300 1 true []).2 = true := by decide +kernel
  have hm1 : (AMap.get once.docs 300).bind (fun d => (transitiveMembers once.world [300] d.group).toOption.map (fun tm => AMap.get tm 1)) =
      some (some (⟨.individual, 1⟩, .relay)) := by decide +kernel
  have hread : ((once.encryptContent EF L2 300 7 8 42).2.toOption.bind (fun p => (alice.decryptContent EF 300 p.1).2.toOption.map Prod.fst)) =
      some 42 := by decide +kernel
  obtain ⟨d1, hd1, hm1⟩ := Option.bind_eq_some_iff.1 hm1
  obtain ⟨tm1, ht1, hm1⟩ := Option.map_eq_some_iff.1 hm1
  have ok_of : ∀ {α ε : Type} {x : Except ε α} {a : α}, x.toOption = some a → x = .ok a := by
    intro α ε x a h
    cases x with
    | error e => cases h
    | ok b => cases h; rfl
  obtain ⟨ops, hops⟩ : ∃ ops, twice.revokeFromDoc EF L 300 1 true [] = (once, .ok ops) := by
    unfold once
    cases hr : twice.revokeFromDoc EF L 300 1 true [] with
    | mk k' r =>
      rw [hr] at hrv
      cases r with
      | error err => cases hrv
      | ok ops => exact ⟨ops, rfl⟩
  cases hw : once.encryptContent EF L2 300 7 8 42 with
  | mk v' r =>
    rw [hw] at hread
    cases r with
    | error err => cases hread
    | ok p =>
      obtain ⟨e, o⟩ := p
      cases hdec : (alice.decryptContent EF 300 e).2 with
      | error err => simp [hdec, Except.toOption] at hread
      | ok q =>
        obtain ⟨x, key⟩ := q
        simp [hdec, Except.toOption] at hread
        subst hread
        exact ⟨EF, L, L2, twice, once, v', alice, ops, d1, tm1, e, o, key, EF_inj, twice_fleet, alice_only, hops, hd1, ok_of ht1, hm1, hw, hdec⟩

end LostProps

end Verif.Keyhive
