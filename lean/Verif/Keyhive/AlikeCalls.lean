import Verif.Keyhive.AlikeLemmas
import Verif.Keyhive.Content
import Verif.Keyhive.AnswerSpec

/-! # Calls made on devices that differ only in the revocations marked as in effect -/

namespace Verif.Keyhive

open Verif.Group Verif.Cgka Verif.BeeKem

variable {E : Env}

/-! ## Groups -/

theorem capability_alike {g g' : Group} (h : unmark g' = unmark g) : g'.getCapability = g.getCapability := by
  funext i; unfold Group.getCapability; rw [unmark_members h]

theorem findProof_alike {N : Nested} {g g' : Group} (h : unmark g' = unmark g) (signer : Id) (can : Access) :
    ∀ (l : List Id) (b : Option Access), g'.findProof N signer can l b = g.findProof N signer can l b
  | [], _ => rfl
  | m :: ms, b => by
    unfold Group.findProof
    simp only [capability_alike h, findProof_alike h signer can ms]

theorem nestedProof_alike {N : Nested} {g g' : Group} (h : unmark g' = unmark g) (signer : Id) (can : Access) :
    ∀ (l : List Id), g'.nestedProof N signer can l = g.nestedProof N signer can l
  | [] => rfl
  | m :: ms => by
    unfold Group.nestedProof
    simp only [capability_alike h, nestedProof_alike h signer can ms]

theorem addMember_alike {H : Op → Nat} {N : Nested} {S : Op → Option Nat} {g g' : Group} (h : unmark g' = unmark g) (who : Agent)
    (can : Access) (signer : Id) (content : Content) :
    g'.addMember H N S who can signer content = g.addMember H N S who can signer content := by
  unfold Group.addMember Group.proofFor
  simp only [unmark_id h, unmark_members h, unmark_revHeads h, capability_alike h, findProof_alike h, receiveDelegation_alike h]

theorem issueRevocation_alike {H : Op → Nat} {N : Nested} {S : Op → Option Nat} {g g' : Group} (h : unmark g' = unmark g)
    (signer : Id) (revoke : Dlg) (proof : Option Dlg) (content : Content) :
    g'.issueRevocation H N S signer revoke proof content = g.issueRevocation H N S signer revoke proof content := by
  unfold Group.issueRevocation
  simp only [receiveRevocation_alike h]

/-- The outcome of a call on groups that are the same up to marks. -/
def SameStep {α : Type} (a a' : Group.Step α) : Prop := unmark a'.1 = unmark a.1 ∧ a'.2 = a.2

theorem issueAll_alike {H : Op → Nat} {N : Nested} {S : Op → Option Nat} {signer : Id} {revoke : Dlg} {content : Content} :
    ∀ {g g' : Group} (_ : unmark g' = unmark g) (ps : List (Option Dlg)) (done : List Rev),
    SameStep (Group.issueAll H N S signer revoke content g ps done) (Group.issueAll H N S signer revoke content g' ps done)
  | g, g', h, [], done => ⟨h, rfl⟩
  | g, g', h, p :: ps, done => by
    unfold Group.issueAll
    rw [issueRevocation_alike h]
    split
    · exact ⟨h, rfl⟩
    · exact issueAll_alike rfl ps _

theorem revokeOne_alike {H : Op → Nat} {N : Nested} {S : Op → Option Nat} {member signer : Id} {content : Content}
    {g g' : Group} (h : unmark g' = unmark g) (d : Dlg) (done : List Rev) :
    SameStep (g.revokeOne H N S member signer content d done) (g'.revokeOne H N S member signer content d done) := by
  unfold Group.revokeOne
  have h1 : g'.ownProofs member signer d = g.ownProofs member signer d := by unfold Group.ownProofs; rw [unmark_members h]
  rw [h1, nestedProof_alike h, unmark_members h]
  split
  · split
    · exact ⟨h, rfl⟩
    · exact ⟨h, rfl⟩
    · exact issueAll_alike h _ _
  · exact issueAll_alike h _ _

theorem revokeEach_alike {H : Op → Nat} {N : Nested} {S : Op → Option Nat} {member signer : Id} {content : Content} :
    ∀ {g g' : Group} (_ : unmark g' = unmark g) (ds : List Dlg) (done : List Rev),
    SameStep (Group.revokeEach H N S member signer content g ds done) (Group.revokeEach H N S member signer content g' ds done)
  | g, g', h, [], done => ⟨h, rfl⟩
  | g, g', h, d :: ds, done => by
    unfold Group.revokeEach
    dsimp only
    rw [unmark_id h]
    have key : SameStep (if signer = g.id then Group.issueAll H N S signer d content g [none] done
        else g.revokeOne H N S member signer content d done)
        (if signer = g.id then Group.issueAll H N S signer d content g' [none] done
        else g'.revokeOne H N S member signer content d done) := by
      split
      · exact issueAll_alike h _ _
      · exact revokeOne_alike h _ _
    revert key
    generalize (if signer = g.id then Group.issueAll H N S signer d content g [none] done
        else g.revokeOne H N S member signer content d done) = a
    generalize (if signer = g.id then Group.issueAll H N S signer d content g' [none] done
        else g'.revokeOne H N S member signer content d done) = a'
    obtain ⟨s, o⟩ := a
    obtain ⟨s', o'⟩ := a'
    rintro ⟨m1, m2⟩
    dsimp only at m1 m2
    subst m2
    cases o' with
    | error e => exact ⟨m1, rfl⟩
    | ok l => exact revokeEach_alike m1 ds l

theorem redelegate_alike {H : Op → Nat} {N : Nested} {S : Op → Option Nat} {member signer : Id} {content : Content} :
    ∀ {g g' : Group} (_ : unmark g' = unmark g) (ds : List Dlg) (done : List Dlg),
    SameStep (Group.redelegate H N S member signer content g ds done) (Group.redelegate H N S member signer content g' ds done)
  | g, g', h, [], done => ⟨h, rfl⟩
  | g, g', h, d :: ds, done => by
    unfold Group.redelegate
    rw [addMember_alike h]
    split
    · exact redelegate_alike h ds done
    · split
      · exact redelegate_alike h ds done
      · split
        · split
          · exact ⟨h, rfl⟩
          · exact redelegate_alike rfl ds _
        · exact redelegate_alike h ds done

theorem revokeMember_alike {H : Op → Nat} {N : Nested} {S : Op → Option Nat} {g g' : Group} (h : unmark g' = unmark g)
    (member : Id) (retain : Bool) (signer : Id) (content : Content) :
    SameStep (g.revokeMember H N S member retain signer content) (g'.revokeMember H N S member retain signer content) := by
  unfold Group.revokeMember
  rw [unmark_members h]
  cases AMap.get g.members member with
  | none => exact ⟨h, rfl⟩
  | some toRevoke =>
    dsimp only
    have key := revokeEach_alike (H := H) (N := N) (S := S) (member := member) (signer := signer) (content := content) h toRevoke []
    revert key
    generalize Group.revokeEach H N S member signer content g toRevoke [] = a
    generalize Group.revokeEach H N S member signer content g' toRevoke [] = a'
    obtain ⟨s, o⟩ := a
    obtain ⟨s', o'⟩ := a'
    rintro ⟨m1, m2⟩
    dsimp only at m1 m2
    subst m2
    cases o' with
    | error e => exact ⟨m1, rfl⟩
    | ok l =>
      dsimp only
      split
      · have key := redelegate_alike (H := H) (N := N) (S := S) (member := member) (signer := signer) (content := content) m1
          (AMap.values g.members).flatten []
        revert key
        generalize Group.redelegate H N S member signer content s (AMap.values g.members).flatten [] = a
        generalize Group.redelegate H N S member signer content s' (AMap.values g.members).flatten [] = a'
        obtain ⟨s, o⟩ := a
        obtain ⟨s', o'⟩ := a'
        rintro ⟨m1, m2⟩
        dsimp only at m1 m2
        subst m2
        cases o' with
        | error e => exact ⟨m1, rfl⟩
        | ok l => exact ⟨m1, rfl⟩
      · exact ⟨m1, rfl⟩

theorem newOps_alike {g g' h h' : Group} (h1 : unmark g' = unmark g) (h2 : unmark h' = unmark h) : g'.newOps h' = g.newOps h := by
  unfold Group.newOps Group.headOps
  rw [unmark_dlgHeads h1, unmark_revHeads h1, unmark_dlgHeads h2, unmark_revHeads h2]

/-! ## Worlds -/

theorem individualIds_alike {W W' : World} (h : SameWorld W W') (held : List Id) : ∀ (n : Nat) (l : List Agent) (seen ids : List Id),
    Group.individualIds W' held n l seen ids = Group.individualIds W held n l seen ids
  | 0, _, _, _ => rfl
  | _ + 1, [], _, _ => rfl
  | n + 1, a :: l, seen, ids => by
    unfold Group.individualIds
    simp only [individualIds_alike h held n]
    rcases get_cases h a.id with ⟨h1, h2⟩ | ⟨g', g, h1, h2, h3⟩
    · rw [h1, h2]
    · rw [h1, h2]
      simp only [unmark_members h3]

theorem agentIds_alike {W W' : World} (h : SameWorld W W') (held : List Id) (a : Agent) :
    a.individualIds W' held = a.individualIds W held := by
  unfold Agent.individualIds
  rw [individualIds_alike h, size_alike h]

theorem idsBehind_alike {W W' : World} (h : SameWorld W W') (held : List Id) : ∀ (l : List Agent) (acc : List Id),
    idsBehind W' held l acc = idsBehind W held l acc
  | [], _ => rfl
  | a :: l, acc => by
    unfold idsBehind
    simp only [agentIds_alike h, idsBehind_alike h held l]

theorem groupIds_alike {W W' : World} (h : SameWorld W W') (held : List Id) {g g' : Group} (hg : unmark g' = unmark g) :
    groupIndividualIds W' held g' = groupIndividualIds W held g := by
  unfold groupIndividualIds
  rw [idsBehind_alike h, unmark_members hg]

/-! ## Documents -/

theorem addCgkaMembers_alike {H : SOp → Nat} {sign : Payload → Res SOp} : ∀ {d d' : Doc} (_ : Twins.SameDoc d d')
    (l : List (Id × Pk)) (acc : List SOp),
    Twins.SameDoc (d.addCgkaMembers H sign l acc).1 (d'.addCgkaMembers H sign l acc).1 ∧
      (d'.addCgkaMembers H sign l acc).2 = (d.addCgkaMembers H sign l acc).2
  | d, d', h, [], acc => ⟨h, rfl⟩
  | d, d', h, (i, pk) :: l, acc => by
    unfold Doc.addCgkaMembers
    rw [h.2.2]
    split
    · exact ⟨h, rfl⟩
    · split
      · exact ⟨⟨h.1, h.2.1, rfl⟩, rfl⟩
      · exact addCgkaMembers_alike (d := { d with cgka := some _ }) (d' := { d' with cgka := some _ }) ⟨h.1, h.2.1, rfl⟩ l _

theorem removeCgkaMembers_alike {H : SOp → Nat} {sign : Payload → Res SOp} : ∀ {d d' : Doc} (_ : Twins.SameDoc d d')
    (l : List Id) (acc : List SOp),
    Twins.SameDoc (d.removeCgkaMembers H sign l acc).1 (d'.removeCgkaMembers H sign l acc).1 ∧
      (d'.removeCgkaMembers H sign l acc).2 = (d.removeCgkaMembers H sign l acc).2
  | d, d', h, [], acc => ⟨h, rfl⟩
  | d, d', h, i :: l, acc => by
    unfold Doc.removeCgkaMembers
    rw [h.2.2]
    split
    · exact ⟨h, rfl⟩
    · split
      · exact ⟨⟨h.1, h.2.1, rfl⟩, rfl⟩
      · exact removeCgkaMembers_alike (d := { d with cgka := some _ }) (d' := { d' with cgka := some _ }) ⟨h.1, h.2.1, rfl⟩ l _

theorem dropCgkaMembers_alike {H : SOp → Nat} {sign : Payload → Res SOp} : ∀ {d d' : Doc} (_ : Twins.SameDoc d d')
    (l : List Id) (acc : List SOp),
    Twins.SameDoc (d.dropCgkaMembers H sign l acc).1 (d'.dropCgkaMembers H sign l acc).1 ∧
      (d'.dropCgkaMembers H sign l acc).2 = (d.dropCgkaMembers H sign l acc).2
  | d, d', h, [], acc => ⟨h, rfl⟩
  | d, d', h, i :: l, acc => by
    unfold Doc.dropCgkaMembers
    rw [h.2.2]
    split
    · exact ⟨h, rfl⟩
    · split
      · exact dropCgkaMembers_alike (d := { d with cgka := some _ }) (d' := { d' with cgka := some _ }) ⟨h.1, h.2.1, rfl⟩ l _
      · exact dropCgkaMembers_alike (d := { d with cgka := some _ }) (d' := { d' with cgka := some _ }) ⟨h.1, h.2.1, rfl⟩ l _

theorem encryptContent_alike {H : SOp → Nat} {sign : Payload → Res SOp} {gen : BeeKem.Gen} {d d' : Doc} (h : Twins.SameDoc d d')
    (c p x : Nat) : Twins.SameDoc (d.encryptContent H sign gen c p x).1 (d'.encryptContent H sign gen c p x).1 ∧
      (d'.encryptContent H sign gen c p x).2 = (d.encryptContent H sign gen c p x).2 := by
  unfold Doc.encryptContent
  rw [h.2.2]
  repeat' split
  all_goals first
    | exact ⟨⟨h.1, h.2.1, rfl⟩, rfl⟩
    | exact ⟨h, rfl⟩

theorem decryptContent_alike {H : SOp → Nat} {d d' : Doc} (h : Twins.SameDoc d d') (e : EncContent) :
    Twins.SameDoc (d.decryptContent H e).1 (d'.decryptContent H e).1 ∧
      (d'.decryptContent H e).2 = (d.decryptContent H e).2 := by
  unfold Doc.decryptContent
  rw [h.2.2]
  split
  · exact ⟨h, rfl⟩
  · split
    · exact ⟨⟨h.1, h.2.1, rfl⟩, rfl⟩
    · exact ⟨⟨h.1, h.2.1, rfl⟩, rfl⟩

theorem pcsUpdate_alike {H : SOp → Nat} {sign : Payload → Res SOp} {gen : BeeKem.Gen} {d d' : Doc} (h : Twins.SameDoc d d') :
    Twins.SameDoc (d.pcsUpdate H sign gen).1 (d'.pcsUpdate H sign gen).1 ∧
      (d'.pcsUpdate H sign gen).2 = (d.pcsUpdate H sign gen).2 := by
  unfold Doc.pcsUpdate
  rw [h.2.2]
  repeat' split
  all_goals first
    | exact ⟨⟨h.1, h.2.1, rfl⟩, rfl⟩
    | exact ⟨h, rfl⟩

/-! ## Devices -/

namespace Twins

/-- The same outcome on twins. -/
def Same {α : Type} (a a' : Keyhive × α) : Prop := Twins a.1 a'.1 ∧ a'.2 = a.2

theorem Same.agree {α : Type} {a a' : Step α} (h : Same a a') : Agree a a' := ⟨h.1, .inl h.2⟩

theorem putSame {k k' : Keyhive} (h : Twins k k') (i : Id) {d d' : Doc} (hd : SameDoc d d') : Twins (k.setDoc i d) (k'.setDoc i d') :=
  h.setDoc i hd.1 hd.2.1 hd.2.2

theorem foldDlg {k k' : Keyhive} (h : Twins k k') : ∀ l : List Dlg, Twins (l.foldl (Keyhive.storeDlg E) k) (l.foldl (Keyhive.storeDlg E) k')
  | [] => h
  | d :: l => foldDlg (h.storeDlg d) l

theorem foldRev {k k' : Keyhive} (h : Twins k k') : ∀ l : List Rev, Twins (l.foldl (Keyhive.storeRev E) k) (l.foldl (Keyhive.storeRev E) k')
  | [] => h
  | r :: l => foldRev (h.storeRev r) l

theorem storeAll {k k' : Keyhive} (h : Twins k k') (rs : List Rev) (ds : List Dlg) : Twins (k.storeAll E rs ds) (k'.storeAll E rs ds) :=
  (h.foldRev rs).foldDlg ds

theorem storeNew {k k' : Keyhive} (h : Twins k k') {g g' x x' : Group} (h1 : unmark g' = unmark g) (h2 : unmark x' = unmark x) :
    Twins (k.storeNew E g x) (k'.storeNew E g' x') := by
  unfold Keyhive.storeNew
  rw [newOps_alike h1 h2]
  exact h.storeAll _ _

theorem keysDocs {k k' : Keyhive} (h : Twins k k') : AMap.keys k'.docs = AMap.keys k.docs := by
  have := congrArg (List.map Prod.fst) h.alike.docs
  simpa [AMap.keys, List.map_map, Function.comp_def] using this

theorem docCases {k k' : Keyhive} (h : Twins k k') (i : Id) : (AMap.get k'.docs i = none ∧ AMap.get k.docs i = none) ∨
    ∃ d' d : Doc, AMap.get k'.docs i = some d' ∧ AMap.get k.docs i = some d ∧ SameDoc d d' := h.alike.doc i

theorem generateGroup {k k' : Keyhive} (h : Twins k k') (S : Op → Option Nat) (gid : Id) (coparents : List Agent) :
    Same (k.generateGroup E S gid coparents) (k'.generateGroup E S gid coparents) := by
  unfold Keyhive.generateGroup
  rw [h.alike.reg]
  split
  · exact ⟨h, rfl⟩
  · rename_i g _
    have h1 := h.foldDlg (E := E) (AMap.values g.dlgHeads)
    refine ⟨⟨⟨?_, h1.alike.unlisted, h1.alike.pairs, h1.alike.pending, h1.alike.dlgs, h1.alike.revs, ?_, h1.alike.docs⟩, h1.wf, h1.wf'⟩, rfl⟩
    · simp only [Keyhive.insertGroup, h1.alike.reg]
    · exact map_insert h1.alike.groups _ rfl

variable {L : Local}

theorem pickIndividual {k k' : Keyhive} (h : Twins k k') (hL : L.ByPrekeys) (held : List Id)
    (a : Agent) (doc : Id) : pickIndividualPrekeys L k' held a doc = pickIndividualPrekeys L k held a doc := by
  unfold pickIndividualPrekeys
  rw [agentIds_alike h.alike.world, hL _ _ h.alike.reg]

theorem pickForGroup {k k' : Keyhive} (h : Twins k k') (hL : L.ByPrekeys) (doc : Id) :
    ∀ (ms : List (Id × Agent × Access)) (acc : List (Id × Pk)),
    k'.pickForGroup E L doc ms acc = k.pickForGroup E L doc ms acc
  | [], _ => rfl
  | (i, a, x) :: ms, acc => by
    unfold Keyhive.pickForGroup
    rw [h.alike.reg, h.pickIndividual hL]
    split
    · exact pickForGroup h hL doc ms _
    · split
      · rfl
      · exact pickForGroup h hL doc ms _

theorem generateDoc {k k' : Keyhive} (h : Twins k k') (hL : L.ByPrekeys)
    (S : Op → Option Nat) (did : Id) (coparents : List Agent) (heads : List Nat) :
    Same (k.generateDoc E L S did coparents heads) (k'.generateDoc E L S did coparents heads) := by
  unfold Keyhive.generateDoc
  rw [h.alike.reg]
  split
  · exact ⟨h, rfl⟩
  · rename_i g _
    have h1 := h.foldDlg (E := E) (AMap.values g.dlgHeads)
    dsimp only
    rw [transitive_alike h1.alike.world [] (rfl : unmark g = unmark g)]
    split
    · exact ⟨h1, rfl⟩
    · rw [h1.pickForGroup hL]
      split
      · exact ⟨h1, rfl⟩
      · split
        · exact ⟨h1, rfl⟩
        · refine ⟨⟨⟨?_, h1.alike.unlisted, h1.alike.pairs, h1.alike.pending, h1.alike.dlgs, h1.alike.revs, h1.alike.groups, ?_⟩,
            h1.wf, h1.wf'⟩, rfl⟩
          · simp only [Keyhive.insertDoc, h1.alike.reg]
          · exact map_insert (f := fun d : Doc => { d with group := unmark d.group }) h1.alike.docs _ rfl

theorem addMemberToDoc {k k' : Keyhive} (h : Twins k k') (hL : L.ByPrekeys)
    (did : Id) (who : Agent) (can : Access) (content : Content) :
    Same (k.addMemberToDoc E L did who can content) (k'.addMemberToDoc E L did who can content) := by
  unfold Keyhive.addMemberToDoc
  rcases h.docCases did with ⟨h1, h2⟩ | ⟨d', d, h1, h2, h3⟩
  · rw [h1, h2]; exact ⟨h, rfl⟩
  · rw [h1, h2]
    dsimp only
    rw [addMember_alike h3.1, membersOf_alike h.alike.world, h.alike.reg]
    split
    · exact ⟨h, rfl⟩
    · rename_i g x _
      have hs : SameDoc { d with group := g } { d' with group := g } := ⟨rfl, h3.2.1, h3.2.2⟩
      have ht : Twins ((k.storeDlg E x).setDoc did { d with group := g }) ((k'.storeDlg E x).setDoc did { d' with group := g }) :=
        (h.storeDlg x).putSame did hs
      split
      · rw [ht.pickIndividual hL]
        split
        · exact ⟨ht, rfl⟩
        · rename_i prekeys _
          have key := addCgkaMembers_alike (H := E.hashCgka did) (sign := L.signCgka did) hs prekeys []
          revert key
          generalize Doc.addCgkaMembers (E.hashCgka did) (L.signCgka did) { d with group := g } prekeys [] = a
          generalize Doc.addCgkaMembers (E.hashCgka did) (L.signCgka did) { d' with group := g } prekeys [] = a'
          obtain ⟨s, o⟩ := a
          obtain ⟨s', o'⟩ := a'
          rintro ⟨m1, m2⟩
          dsimp only at m1 m2
          subst m2
          cases o' with
          | error e => exact ⟨ht.putSame did m1, rfl⟩
          | ok l => exact ⟨ht.putSame did m1, rfl⟩
      · exact ⟨ht, rfl⟩

theorem propagateAdd {k k' : Keyhive} (h : Twins k k') (hL : L.ByPrekeys)
    (gid : Id) (who : Agent) (did : Id) : Same (k.propagateAdd E L gid who did) (k'.propagateAdd E L gid who did) := by
  unfold Keyhive.propagateAdd
  rcases h.docCases did with ⟨h1, h2⟩ | ⟨d', d, h1, h2, h3⟩
  · rw [h1, h2]; exact ⟨h, rfl⟩
  · rw [h1, h2]
    dsimp only
    rw [transitive_alike h.alike.world [did] h3.1, h.pickIndividual hL]
    split
    · exact ⟨h, rfl⟩
    · split
      · exact ⟨h, rfl⟩
      · split
        · exact ⟨h, rfl⟩
        · rename_i prekeys _
          have key := addCgkaMembers_alike (H := E.hashCgka did) (sign := L.signCgka did) h3 prekeys []
          revert key
          generalize Doc.addCgkaMembers (E.hashCgka did) (L.signCgka did) d prekeys [] = a
          generalize Doc.addCgkaMembers (E.hashCgka did) (L.signCgka did) d' prekeys [] = a'
          obtain ⟨s, o⟩ := a
          obtain ⟨s', o'⟩ := a'
          rintro ⟨m1, m2⟩
          dsimp only at m1 m2
          subst m2
          cases o' with
          | error e => exact ⟨h.putSame did m1, rfl⟩
          | ok l => exact ⟨h.putSame did m1, rfl⟩

theorem propagateAdds (hL : L.ByPrekeys) (gid : Id) (who : Agent) :
    ∀ {k k' : Keyhive} (_ : Twins k k') (dids : List Id) (acc : List SOp),
    Same (Keyhive.propagateAdds E L gid who k dids acc) (Keyhive.propagateAdds E L gid who k' dids acc)
  | k, k', h, [], acc => ⟨h, rfl⟩
  | k, k', h, did :: dids, acc => by
    unfold Keyhive.propagateAdds
    have key := h.propagateAdd (E := E) hL gid who did
    revert key
    generalize Keyhive.propagateAdd E L gid who k did = a
    generalize Keyhive.propagateAdd E L gid who k' did = a'
    obtain ⟨s, o⟩ := a
    obtain ⟨s', o'⟩ := a'
    rintro ⟨m1, m2⟩
    dsimp only at m1 m2
    subst m2
    cases o' with
    | error e => exact ⟨m1, rfl⟩
    | ok l => exact propagateAdds hL gid who m1 dids _

theorem addMemberToGroup {k k' : Keyhive} (h : Twins k k') (hL : L.ByPrekeys)
    (gid : Id) (who : Agent) (can : Access) (content : Content) :
    Same (k.addMemberToGroup E L gid who can content) (k'.addMemberToGroup E L gid who can content) := by
  unfold Keyhive.addMemberToGroup
  rcases h.alike.group gid with ⟨h1, h2⟩ | ⟨g', g, h1, h2, h3⟩
  · rw [h1, h2]; exact ⟨h, rfl⟩
  · rw [h1, h2]
    dsimp only
    rw [addMember_alike h3, membersOf_alike h.alike.world, h.alike.reg]
    split
    · exact ⟨h, rfl⟩
    · rename_i x d _
      have ht : Twins { k.storeDlg E d with groups := AMap.insert k.groups gid x } { k'.storeDlg E d with groups := AMap.insert k'.groups gid x } :=
        (h.storeDlg d).setGroup gid rfl
      split
      · rw [ht.keysDocs]
        have key := propagateAdds (E := E) hL gid d.delegate ht
          (AMap.keys { k.storeDlg E d with groups := AMap.insert k.groups gid x }.docs) []
        revert key
        generalize Keyhive.propagateAdds E L gid d.delegate { k.storeDlg E d with groups := AMap.insert k.groups gid x }
          (AMap.keys { k.storeDlg E d with groups := AMap.insert k.groups gid x }.docs) [] = a
        generalize Keyhive.propagateAdds E L gid d.delegate { k'.storeDlg E d with groups := AMap.insert k'.groups gid x }
          (AMap.keys { k.storeDlg E d with groups := AMap.insert k.groups gid x }.docs) [] = a'
        obtain ⟨s, o⟩ := a
        obtain ⟨s', o'⟩ := a'
        rintro ⟨m1, m2⟩
        dsimp only at m1 m2
        subst m2
        cases o' with
        | error e => exact ⟨m1, rfl⟩
        | ok l => exact ⟨m1, rfl⟩
      · exact ⟨ht, rfl⟩

theorem revokeFromDoc {k k' : Keyhive} (h : Twins k k') (did member : Id) (retain : Bool) (content : Content) :
    Same (k.revokeFromDoc E L did member retain content) (k'.revokeFromDoc E L did member retain content) := by
  unfold Keyhive.revokeFromDoc
  rcases h.docCases did with ⟨h1, h2⟩ | ⟨d', d, h1, h2, h3⟩
  · rw [h1, h2]; exact ⟨h, rfl⟩
  · rw [h1, h2]
    dsimp only
    rw [unmark_members h3.1, idsBehind_alike h.alike.world, membersOf_alike h.alike.world, h.alike.reg]
    split
    · exact ⟨h, rfl⟩
    · rename_i ids _
      have key := revokeMember_alike (H := E.opDigest) (N := membersOf k.world [did]) (S := L.sign) h3.1 member retain k.reg.me content
      revert key
      generalize Group.revokeMember E.opDigest (membersOf k.world [did]) L.sign d.group member retain k.reg.me content = a
      generalize Group.revokeMember E.opDigest (membersOf k.world [did]) L.sign d'.group member retain k.reg.me content = a'
      obtain ⟨s, o⟩ := a
      obtain ⟨s', o'⟩ := a'
      rintro ⟨m1, m2⟩
      dsimp only at m1 m2
      subst m2
      cases o' with
      | error e => exact ⟨(h.storeNew h3.1 m1).putSame did (d := { d with group := s }) (d' := { d' with group := s' }) ⟨m1, h3.2.1, h3.2.2⟩, rfl⟩
      | ok l =>
        obtain ⟨revs, dlgs⟩ := l
        dsimp only
        have hs : SameDoc { d with group := s } { d' with group := s' } := ⟨m1, h3.2.1, h3.2.2⟩
        have ht : Twins ((k.storeAll E revs dlgs).setDoc did { d with group := s }) ((k'.storeAll E revs dlgs).setDoc did { d' with group := s' }) :=
          (h.storeAll revs dlgs).putSame did hs
        rw [groupIds_alike ht.alike.world [did] m1]
        split
        · exact ⟨ht, rfl⟩
        · rename_i still _
          have key := removeCgkaMembers_alike (H := E.hashCgka did) (sign := L.signCgka did) hs
            (ids.filter (fun i => decide (i ∉ still))) []
          revert key
          generalize Doc.removeCgkaMembers (E.hashCgka did) (L.signCgka did) { d with group := s } (ids.filter (fun i => decide (i ∉ still))) [] = a
          generalize Doc.removeCgkaMembers (E.hashCgka did) (L.signCgka did) { d' with group := s' } (ids.filter (fun i => decide (i ∉ still))) [] = a'
          obtain ⟨s, o⟩ := a
          obtain ⟨s', o'⟩ := a'
          rintro ⟨m1, m2⟩
          dsimp only at m1 m2
          subst m2
          cases o' with
          | error e => exact ⟨ht.putSame did m1, rfl⟩
          | ok l => exact ⟨ht.putSame did m1, rfl⟩

theorem propagateRemove {k k' : Keyhive} (h : Twins k k') (gid : Id) (ids : List Id) (did : Id) :
    Same (k.propagateRemove E L gid ids did) (k'.propagateRemove E L gid ids did) := by
  unfold Keyhive.propagateRemove
  rcases h.docCases did with ⟨h1, h2⟩ | ⟨d', d, h1, h2, h3⟩
  · rw [h1, h2]; exact ⟨h, rfl⟩
  · rw [h1, h2]
    dsimp only
    rw [transitive_alike h.alike.world [did] h3.1]
    split
    · exact ⟨h, rfl⟩
    · split
      · exact ⟨h, rfl⟩
      · have key := fun l => dropCgkaMembers_alike (H := E.hashCgka did) (sign := L.signCgka did) h3 l []
        exact ⟨h.putSame did (key _).1, congrArg Except.ok (key _).2⟩

theorem propagateRemoves (gid : Id) (ids : List Id) :
    ∀ {k k' : Keyhive} (_ : Twins k k') (dids : List Id) (acc : List SOp),
    Same (Keyhive.propagateRemoves E L gid ids k dids acc) (Keyhive.propagateRemoves E L gid ids k' dids acc)
  | k, k', h, [], acc => ⟨h, rfl⟩
  | k, k', h, did :: dids, acc => by
    unfold Keyhive.propagateRemoves
    have key := h.propagateRemove (E := E) (L := L) gid ids did
    revert key
    generalize Keyhive.propagateRemove E L gid ids k did = a
    generalize Keyhive.propagateRemove E L gid ids k' did = a'
    obtain ⟨s, o⟩ := a
    obtain ⟨s', o'⟩ := a'
    rintro ⟨m1, m2⟩
    dsimp only at m1 m2
    subst m2
    cases o' with
    | error e => exact ⟨m1, rfl⟩
    | ok l => exact propagateRemoves gid ids m1 dids _

theorem revokeFromGroup {k k' : Keyhive} (h : Twins k k') (gid member : Id) (retain : Bool) (content : Content) :
    Same (k.revokeFromGroup E L gid member retain content) (k'.revokeFromGroup E L gid member retain content) := by
  unfold Keyhive.revokeFromGroup
  rcases h.alike.group gid with ⟨h1, h2⟩ | ⟨g', g, h1, h2, h3⟩
  · rw [h1, h2]; exact ⟨h, rfl⟩
  · rw [h1, h2]
    dsimp only
    rw [unmark_members h3, idsBehind_alike h.alike.world, membersOf_alike h.alike.world, h.alike.reg]
    split
    · exact ⟨h, rfl⟩
    · rename_i ids _
      have key := revokeMember_alike (H := E.opDigest) (N := membersOf k.world [gid]) (S := L.sign) h3 member retain k.reg.me content
      revert key
      generalize Group.revokeMember E.opDigest (membersOf k.world [gid]) L.sign g member retain k.reg.me content = a
      generalize Group.revokeMember E.opDigest (membersOf k.world [gid]) L.sign g' member retain k.reg.me content = a'
      obtain ⟨s, o⟩ := a
      obtain ⟨s', o'⟩ := a'
      rintro ⟨m1, m2⟩
      dsimp only at m1 m2
      subst m2
      cases o' with
      | error e =>
        dsimp only
        have h5 : ∀ k : Keyhive, (k.storeNew E g s).groups = k.groups := fun k => (storeNew_same g s k).1
        have h6 : ∀ k : Keyhive, (k.storeNew E g' s').groups = k.groups := fun k => (storeNew_same g' s' k).1
        have := (h.storeNew (E := E) h3 m1).setGroup gid m1
        rw [h5, h6] at this
        exact ⟨this, rfl⟩
      | ok l =>
        obtain ⟨revs, dlgs⟩ := l
        dsimp only
        have h5 : ∀ k : Keyhive, (k.storeAll E revs dlgs).groups = k.groups := fun k => (storeAll_same revs dlgs k).1
        have ht := (h.storeAll (E := E) revs dlgs).setGroup gid m1
        rw [h5, h5] at ht
        split
        · exact ⟨ht, rfl⟩
        · rw [ht.keysDocs]
          exact propagateRemoves (E := E) (L := L) gid ids ht _ []

theorem encryptContent {k k' : Keyhive} (h : Twins k k') (did : Id) (c p x : Nat) :
    Same (k.encryptContent E L did c p x) (k'.encryptContent E L did c p x) := by
  unfold Keyhive.encryptContent
  rcases h.docCases did with ⟨h1, h2⟩ | ⟨d', d, h1, h2, h3⟩
  · rw [h1, h2]; exact ⟨h, rfl⟩
  · rw [h1, h2]
    have key := encryptContent_alike (H := E.hashCgka did) (sign := L.signCgka did) (gen := L.gen) h3 c p x
    exact ⟨h.putSame did key.1, key.2⟩

theorem decryptContent {k k' : Keyhive} (h : Twins k k') (did : Id) (e : EncContent) :
    Same (k.decryptContent E did e) (k'.decryptContent E did e) := by
  unfold Keyhive.decryptContent
  rcases h.docCases did with ⟨h1, h2⟩ | ⟨d', d, h1, h2, h3⟩
  · rw [h1, h2]; exact ⟨h, rfl⟩
  · rw [h1, h2]
    have key := decryptContent_alike (H := E.hashCgka did) h3 e
    exact ⟨h.putSame did key.1, key.2⟩

theorem forcePcsUpdate {k k' : Keyhive} (h : Twins k k') (did : Id) : Same (k.forcePcsUpdate E L did) (k'.forcePcsUpdate E L did) := by
  unfold Keyhive.forcePcsUpdate
  rcases h.docCases did with ⟨h1, h2⟩ | ⟨d', d, h1, h2, h3⟩
  · rw [h1, h2]; exact ⟨h, rfl⟩
  · rw [h1, h2]
    have key := pcsUpdate_alike (H := E.hashCgka did) (sign := L.signCgka did) (gen := L.gen) h3
    exact ⟨h.putSame did key.1, key.2⟩

theorem mergeIndies : ∀ (l : AMap Id Prekey.Indie) {k k' : Keyhive}, Twins k k' →
    Twins (l.foldl Keyhive.mergeIndie k) (l.foldl Keyhive.mergeIndie k')
  | [], _, _, h => h
  | p :: l, k, k', h => by
    refine mergeIndies l ?_
    unfold Keyhive.mergeIndie
    rw [h.alike.reg, h.alike.unlisted, h.alike.individual]
    split
    · exact h
    · split
      all_goals exact ⟨⟨rfl, rfl, h.alike.pairs, h.alike.pending, h.alike.dlgs, h.alike.revs, h.alike.groups, h.alike.docs⟩, h.wf, h.wf'⟩

theorem ingestArchive {k k' : Keyhive} (h : Twins k k') (ord : List Event → List Event) (a : Archive) :
    AgreeAll (k.ingestArchive E ord a) (k'.ingestArchive E ord a) := by
  unfold Keyhive.ingestArchive
  refine (mergeIndies _ ?_).ingest ord _
  unfold Keyhive.mergeActive
  rw [h.alike.reg, h.alike.pairs]
  exact ⟨⟨rfl, h.alike.unlisted, rfl, h.alike.pending, h.alike.dlgs, h.alike.revs, h.alike.groups, h.alike.docs⟩, h.wf, h.wf'⟩

theorem run {k k' : Keyhive} (h : Twins k k') : ∀ {c : Call}, c.ByPrekeys →
    Twins (c.run E k) (c.run E k') ∧ (c.answer E k' = c.answer E k ∨ (c.answer E k').Stuck ∧ (c.answer E k).Stuck)
  | .receive e, _ => by
    refine ⟨(h.receive e).1, ?_⟩
    rcases (h.receive (E := E) e).2 with h1 | ⟨x, y, h1, h2, h3, h4⟩
    · exact .inl (congrArg Answer.received h1)
    · refine .inr ⟨?_, ?_⟩
      · show Answer.Stuck (.received (k'.receive E e).2); rw [h1]; exact .received h3
      · show Answer.Stuck (.received (k.receive E e).2); rw [h2]; exact .received h4
  | .ingest ord events, _ => by
    refine ⟨(h.ingest ord events).1, ?_⟩
    rcases (h.ingest (E := E) ord events).2 with ⟨h1, h2⟩ | ⟨o, o', h1, h2, h3 | ⟨x, y, rfl, rfl, h3, h4⟩⟩
    · exact .inl (congrArg Answer.ingested (h1.trans h2.symm))
    · subst h3
      exact .inl (congrArg Answer.ingested (h1.trans h2.symm))
    · refine .inr ⟨?_, ?_⟩
      · show Answer.Stuck (.ingested (k'.ingest E ord events).2); rw [h1]; exact .ingested h3
      · show Answer.Stuck (.ingested (k.ingest E ord events).2); rw [h2]; exact .ingested h4
  | .ingestArchive ord a, _ => by
    refine ⟨(h.ingestArchive ord a).1, ?_⟩
    rcases (h.ingestArchive (E := E) ord a).2 with ⟨h1, h2⟩ | ⟨o, o', h1, h2, h3 | ⟨x, y, rfl, rfl, h3, h4⟩⟩
    · exact .inl (congrArg Answer.ingested (h1.trans h2.symm))
    · subst h3
      exact .inl (congrArg Answer.ingested (h1.trans h2.symm))
    · refine .inr ⟨?_, ?_⟩
      · show Answer.Stuck (.ingested (k'.ingestArchive E ord a).2); rw [h1]; exact .ingested h3
      · show Answer.Stuck (.ingested (k.ingestArchive E ord a).2); rw [h2]; exact .ingested h4
  | .contactCard op, _ => by
    refine ⟨?_, .inl ?_⟩
    · show Twins { k with reg := _ } { k' with reg := (k'.reg.receiveContactCard E.hashKey E.validKey op).1 }
      rw [h.alike.reg]
      exact h.setReg _
    · show Answer.card (k'.reg.receiveContactCard E.hashKey E.validKey op).2 = _
      rw [h.alike.reg]
      rfl
  | .newGroup S gid coparents, _ =>
    ⟨(h.generateGroup S gid coparents).1, .inl (congrArg Answer.made (h.generateGroup S gid coparents).2)⟩
  | .newDoc L S did coparents heads, hL =>
    ⟨(h.generateDoc hL S did coparents heads).1, .inl (congrArg Answer.made (h.generateDoc hL S did coparents heads).2)⟩
  | .addToGroup L gid who can content, hL =>
    ⟨(h.addMemberToGroup hL gid who can content).1, .inl (congrArg Answer.added (h.addMemberToGroup hL gid who can content).2)⟩
  | .addToDoc L did who can content, hL =>
    ⟨(h.addMemberToDoc hL did who can content).1, .inl (congrArg Answer.added (h.addMemberToDoc hL did who can content).2)⟩
  | .revokeFromGroup L gid member retain content, _ =>
    ⟨(h.revokeFromGroup gid member retain content).1, .inl (congrArg Answer.revoked (h.revokeFromGroup gid member retain content).2)⟩
  | .revokeFromDoc L did member retain content, _ =>
    ⟨(h.revokeFromDoc did member retain content).1, .inl (congrArg Answer.revoked (h.revokeFromDoc did member retain content).2)⟩
  | .encrypt L did c p x, _ => ⟨(h.encryptContent did c p x).1, .inl (congrArg Answer.encrypted (h.encryptContent did c p x).2)⟩
  | .decrypt did e, _ => ⟨(h.decryptContent did e).1, .inl (congrArg Answer.decrypted (h.decryptContent did e).2)⟩
  | .pcsUpdate L did, _ => ⟨(h.forcePcsUpdate did).1, .inl (congrArg Answer.updated (h.forcePcsUpdate did).2)⟩

theorem runAll : ∀ {cs : List Call} {k k' : Keyhive}, Twins k k' → (∀ c ∈ cs, c.ByPrekeys) →
    Twins (k.afterCalls E cs) (k'.afterCalls E cs)
  | [], _, _, h, _ => h
  | c :: cs, _, _, h, hc => runAll (cs := cs) (h.run (hc c (by simp))).1 (fun c' h' => hc c' (by simp [h']))

end Twins

end Verif.Keyhive
