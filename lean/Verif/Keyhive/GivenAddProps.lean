import Verif.Keyhive.GivenUp
import Verif.Keyhive.KeyTreeProps
import Verif.Keyhive.HeadsLemmas

/-! # C145 — giving up adding a member to a group -/

namespace Verif.Keyhive.GivenAddProps

open Verif.Group Verif.Cgka Verif.BeeKem

variable {E : Env}

/-- C145: a call that goes through all documents is the call itself. -/
theorem C145_whole (L : Local) (n : Nat) (k : Keyhive) (gid : Id) (who : Agent) (can : Access) (content : Content)
    (hn : (AMap.keys k.docs).length ≤ n) :
    k.addMemberToGroupUpTo E L n gid who can content = k.addMemberToGroup E L gid who can content := by
  unfold Keyhive.addMemberToGroupUpTo Keyhive.addMemberToGroup
  have : ∀ d, (AMap.keys (k.storeDlg E d).docs).take n = AMap.keys (k.storeDlg E d).docs := fun _ => List.take_of_length_le hn
  cases AMap.get k.groups gid with
  | none => rfl
  | some g =>
    dsimp only
    cases g.addMember E.opDigest (membersOf k.world [gid]) L.sign who can k.reg.me content with
    | error e => rfl
    | ok p =>
      obtain ⟨g', d⟩ := p
      dsimp only
      rw [this d]
      rfl

theorem kept_upTo {k : Keyhive} (h : Kept E k) (L : Local) (n : Nat) (gid : Id) (who : Agent) (can : Access) (content : Content) :
    Kept E (k.addMemberToGroupUpTo E L n gid who can content).1 := by
  unfold Keyhive.addMemberToGroupUpTo
  split
  · exact h
  · rename_i g hg0
    split
    · exact h
    · rename_i g' d hg
      have h1 : Kept E { k.storeDlg E d with groups := AMap.insert k.groups gid g' } := h.insertGroup ((h.groups hg0).add hg) rfl rfl
      dsimp only
      split
      · have h2 := kept_propagateAdds (L := L) (gid := gid) (who := d.delegate)
          (dids := (AMap.keys ({ k.storeDlg E d with groups := AMap.insert k.groups gid g' } : Keyhive).docs).take n) (acc := []) h1
        split
        · rename_i heq; rw [heq] at h2; exact h2
        · rename_i heq; rw [heq] at h2; exact h2
      · exact h1

theorem unmoved_upTo (k : Keyhive) (L : Local) (n : Nat) (gid : Id) (who : Agent) (can : Access) (content : Content) :
    Unmoved k (k.addMemberToGroupUpTo E L n gid who can content).1 := by
  unfold Keyhive.addMemberToGroupUpTo
  split
  · exact .refl k
  · rename_i g hg0
    split
    · exact .refl k
    · rename_i g' d hg
      have h1 : Unmoved k { k.storeDlg E d with groups := AMap.insert k.groups gid g' } := .insertGroup hg0 rfl rfl
      dsimp only
      split
      · have h2 := h1.trans (unmoved_propagateAdds (E := E) (L := L) (gid := gid) (who := d.delegate)
          ((AMap.keys ({ k.storeDlg E d with groups := AMap.insert k.groups gid g' } : Keyhive).docs).take n) _ [])
        split
        · rename_i heq; rw [heq] at h2; exact h2
        · rename_i heq; rw [heq] at h2; exact h2
      · exact h1

theorem upTo_trees {k k' : Keyhive} {L : Local} {n : Nat} {gid : Id} {who : Agent} {can : Access} {content : Content} {d : Dlg}
    {ops : List SOp} (hk : Kept E k) (hno : AMap.get k.docs gid = none) (h : k.addMemberToGroupUpTo E L n gid who can content = (k', .ok (d, ops)))
    (hS : ∀ i doc, AMap.get k'.docs i = some doc → Sound k'.world doc.group) (hK : OneKind k'.world who)
    {i : Id} {doc : Doc} {c : Cgka} (hd : AMap.get k.docs i = some doc) (hc : doc.cgka = some c) (hcur : Current c) :
    ∃ doc' c', AMap.get k'.docs i = some doc' ∧ doc'.cgka = some c' ∧ doc'.group = doc.group ∧ Current c' ∧ ∀ j, c'.tree.containsId j = true ↔
      c.tree.containsId j = true ∨ (can.isReader = true ∧ i ∈ (AMap.keys k.docs).take n ∧ Within k'.world doc.group gid ∧ Behind k'.world who j) := by
  unfold Keyhive.addMemberToGroupUpTo at h
  split at h
  · cases h
  · rename_i g hg
    split at h
    · cases h
    · rename_i g' d' hadd
      have h1 : Kept E { k.storeDlg E d' with groups := AMap.insert k.groups gid g' } := hk.insertGroup ((hk.groups hg).add hadd) rfl rfl
      have hwho : d'.delegate = who := by
        obtain ⟨p, s, _, _, rfl, _⟩ := addMember_ok hadd
        cases p <;> rfl
      simp only at h
      split at h
      · rename_i hread
        split at h
        · cases h
        · rename_i k2 ops2 hp
          cases h
          have hn : gid ∉ (AMap.keys k.docs).take n := fun hx => by
            have := List.mem_of_mem_take hx
            rw [AMap.mem_keys_iff] at this
            exact this hno
          have hpre : SameGroups { k.storeDlg E d with groups := AMap.insert k.groups gid g' } k' := by
            have key : ∀ (dids : List Id) (k k' : Keyhive) (acc ops : List SOp), k.propagateAdds E L gid d.delegate dids acc = (k', .ok ops) →
                SameGroups k k' := by
              intro dids
              induction dids with
              | nil => intro k k' acc ops h; cases h; exact .refl k
              | cons did dids ih =>
                intro k k' acc ops h
                unfold Keyhive.propagateAdds at h
                split at h
                · cases h
                · rename_i k1 ops1 hk1
                  refine SameGroups.trans ?_ (ih _ _ _ _ h)
                  unfold Keyhive.propagateAdd at hk1
                  split at hk1
                  · cases hk1; exact .refl _
                  · rename_i doc hd
                    split at hk1
                    · cases hk1
                    · split at hk1
                      · cases hk1; exact .refl _
                      · split at hk1
                        · cases hk1
                        · rename_i prekeys _
                          split at hk1
                          · cases hk1
                          · rename_i doc' ops' hadd
                            cases hk1
                            have hg : doc'.group = doc.group := by
                              have := addCgkaMembers_group (H := E.hashCgka did) (sign := L.signCgka did) prekeys doc []
                              rw [hadd] at this
                              exact this
                            exact .setDoc hd hg
            exact key _ _ _ _ _ hp
          rw [hpre.world] at hS hK ⊢
          have hS' : ∀ i doc, AMap.get ({ k.storeDlg E d with groups := AMap.insert k.groups gid g' } : Keyhive).docs i = some doc →
              Sound ({ k.storeDlg E d with groups := AMap.insert k.groups gid g' } : Keyhive).world doc.group := by
            intro i doc hd
            obtain ⟨doc', h2, h3⟩ := hpre.doc hd
            rw [← h3]
            exact hS i doc' h2
          obtain ⟨_, hgain⟩ := propagateAdds_spec h1 hS' (by rw [hwho]; exact hK) hn hp
          obtain ⟨doc', c', a1, a2, a3, a4⟩ := hgain i doc c hd hc hcur
          refine ⟨doc', c', a1, a2, ?_, a3, fun j => ?_⟩
          · obtain ⟨doc2, h2, h3⟩ := hpre.doc (i := i) (d := doc) hd
            rw [a1] at h2
            cases h2
            exact h3
          rw [a4, hwho]
          constructor
          · rintro (⟨h4, ⟨doc2, h5, h6⟩, h7⟩ | h5)
            · have : some doc2 = some doc := h5.symm.trans hd
              cases this
              exact .inr ⟨hread, h4, h6, h7⟩
            · exact .inl h5
          · rintro (h5 | ⟨_, h4, h6, h7⟩)
            · exact .inr h5
            · exact .inl ⟨h4, ⟨doc, hd, h6⟩, h7⟩
      · rename_i hread
        cases h
        exact ⟨doc, c, hd, hc, rfl, hcur, fun j => by simp [hread]⟩

/-- C145, when the call is given up: every document gone through with nothing waiting to be replayed has gained exactly the individuals
behind the new member, as after the complete call, and the other ones are as before. Missing: operations waiting. -/
theorem C145_reached_partial {k k' : Keyhive} {L : Local} {n : Nat} {gid : Id} {who : Agent} {can : Access} {content : Content} {d : Dlg}
    {ops : List SOp} (hr : Reach E k) (hno : AMap.get k.docs gid = none)
    (h : k.addMemberToGroupUpTo E L n gid who can content = (k', .ok (d, ops)))
    (hS : ∀ i doc, AMap.get k'.docs i = some doc → Sound k'.world doc.group) (hK : OneKind k'.world who)
    {i : Id} {doc : Doc} {c : Cgka} (hd : AMap.get k.docs i = some doc) (hc : doc.cgka = some c) (hcur : Current c) :
    ∃ doc' c', AMap.get k'.docs i = some doc' ∧ doc'.cgka = some c' ∧ ∀ j, c'.tree.containsId j = true ↔
      c.tree.containsId j = true ∨
        (can.isReader = true ∧ i ∈ (AMap.keys k.docs).take n ∧ Within k'.world doc.group gid ∧ Behind k'.world who j) := by
  obtain ⟨doc', c', a1, a2, -, -, a5⟩ := upTo_trees (reach_kept hr) hno h hS hK hd hc hcur
  exact ⟨doc', c', a1, a2, a5⟩

/-- C145: adding again completes a call that was given up. The device `k` adds `who` to a group and gives up after `n` documents (`k1`),
and then adds `who` again (`k2`). Every document with nothing waiting to be replayed at the beginning, of which the group is a member, has
in the end the individuals behind `who` in its key group, besides those it had before and the individuals who were behind `who` when the
first call came to the document. Missing: operations waiting; calls that end with an error. -/
theorem C145_again_partial {k k1 k2 : Keyhive} {L L' : Local} {n : Nat} {gid : Id} {who : Agent} {can : Access} {content content' : Content}
    {d d' : Dlg} {ops ops' : List SOp} (hr : Reach E k) (hno : AMap.get k.docs gid = none)
    (h : k.addMemberToGroupUpTo E L n gid who can content = (k1, .ok (d, ops)))
    (h' : k1.addMemberToGroup E L' gid who can content' = (k2, .ok (d', ops')))
    (hS : ∀ i doc, AMap.get k1.docs i = some doc → Sound k1.world doc.group) (hK : OneKind k1.world who)
    (hS' : ∀ i doc, AMap.get k2.docs i = some doc → Sound k2.world doc.group) (hK' : OneKind k2.world who)
    {i : Id} {doc : Doc} {c : Cgka} (hd : AMap.get k.docs i = some doc) (hc : doc.cgka = some c) (hcur : Current c) :
    ∃ doc' c', AMap.get k2.docs i = some doc' ∧ doc'.cgka = some c' ∧ ∀ j, c'.tree.containsId j = true ↔
      c.tree.containsId j = true ∨ (can.isReader = true ∧ ((Within k2.world doc.group gid ∧ Behind k2.world who j) ∨
        (i ∈ (AMap.keys k.docs).take n ∧ Within k1.world doc.group gid ∧ Behind k1.world who j))) := by
  obtain ⟨doc1, c1, a1, a2, a3, a4, a5⟩ := upTo_trees (reach_kept hr) hno h hS hK hd hc hcur
  have hk1 : Kept E k1 := by
    have := kept_upTo (reach_kept hr) L n gid who can content
    rw [h] at this
    exact this
  have hno1 : AMap.get k1.docs gid = none := by
    have := (unmoved_upTo (E := E) k L n gid who can content).docs gid
    rw [h, hno] at this
    simpa using this
  obtain ⟨doc2, c2, b1, b2, b3⟩ := KeyTreeProps.addToGroup_trees hk1 hno1 h' hS' hK' a1 a2 a4
  refine ⟨doc2, c2, b1, b2, fun j => ?_⟩
  rw [b3, a5, a3]
  constructor
  · rintro ((h1 | ⟨h1, h2, h3⟩) | ⟨h1, h2⟩)
    · exact .inl h1
    · exact .inr ⟨h1, .inr ⟨h2, h3⟩⟩
    · exact .inr ⟨h1, .inl h2⟩
  · rintro (h1 | ⟨h1, h2 | ⟨h2, h3⟩⟩)
    · exact .inl (.inl h1)
    · exact .inr ⟨h1, h2⟩
    · exact .inl (.inr ⟨h1, h2, h3⟩)

open Verif.Keyhive.Sample

theorem neat_kept {E : Env} {k : Keyhive} {a : Agent} (hk : Kept E k) (h : neat k a = true) {i : Id} {doc : Doc}
    (hd : AMap.get k.docs i = some doc) : Sound k.world doc.group := by
  simp only [neat, Bool.and_eq_true, List.all_eq_true, Bool.or_eq_true, decide_eq_true_eq] at h
  have hin : (i, doc.group) ∈ k.world :=
    List.mem_append_right _ (List.mem_map.2 ⟨(i, doc), AMap.mem_of_get hd, rfl⟩)
  have har : ∀ d, Around k.world doc.group d → d ∈ allDlgs k := by
    rintro d (⟨m, hm⟩ | ⟨i, h, m, e1, e2⟩)
    · exact mem_allDlgs (AMap.get_of_mem h.1 hin) hm
    · exact mem_allDlgs e1 e2
  exact ⟨h.1, (hk.docs hd).2.2.tidy, fun i h hh => hk.tidy hh,
    fun d d' e1 e2 he => ((h.2 d (har d e1)).2 d' (har d' e2)).1.resolve_left (by simp [he]),
    fun d d' e1 e2 he => ((h.2 d (har d e1)).2 d' (har d' e2)).2.resolve_left (by simp [he])⟩

/-- A device starts to add individual 1 to group 200, which is a member of document 300, and gives up before the document. -/
noncomputable def half : Keyhive := (m3.addMemberToGroupUpTo EL L 0 200 ⟨.individual, 1⟩ .read []).1
/-- And adds the individual again. -/
noncomputable def again : Keyhive := (half.addMemberToGroup EL L 200 ⟨.individual, 1⟩ .read []).1

-- The call given up does not let the individual into the key group of the document, and the second one does.
example : Reach EL m3 ∧ AMap.get m3.docs 200 = none ∧ isOk (m3.addMemberToGroupUpTo EL L 0 200 ⟨.individual, 1⟩ .read []).2 = true ∧
    isOk (half.addMemberToGroup EL L 200 ⟨.individual, 1⟩ .read []).2 = true ∧
    (∀ i doc, AMap.get half.docs i = some doc → Sound half.world doc.group) ∧ OneKind half.world ⟨.individual, 1⟩ ∧
    (∀ i doc, AMap.get again.docs i = some doc → Sound again.world doc.group) ∧ OneKind again.world ⟨.individual, 1⟩ ∧
    (treeOf m3 300).any (fun c => decide (Current c)) = true ∧ (treeOf half 300).any (fun c => !c.tree.containsId 1) = true ∧
    (treeOf again 300).any (fun c => c.tree.containsId 1) = true :=
  have hk : Kept EL half := kept_upTo (reach_kept reach_m3) L 0 200 ⟨.individual, 1⟩ .read []
  ⟨reach_m3, by decide +kernel, by decide +kernel, by decide +kernel,
    fun _ _ h => neat_kept hk (a := ⟨.individual, 1⟩) (by decide +kernel) h, neat_kind (by decide +kernel),
    fun _ _ h => neat_kept (kept_addToGroup hk L 200 ⟨.individual, 1⟩ .read []) (a := ⟨.individual, 1⟩) (by decide +kernel) h,
    neat_kind (by decide +kernel), by decide +kernel, by decide +kernel, by decide +kernel⟩

end Verif.Keyhive.GivenAddProps
