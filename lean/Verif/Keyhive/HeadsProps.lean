import Verif.Keyhive.HeadsLemmas
import Verif.Keyhive.QueryProps
import Verif.Keyhive.KeptSample
import Verif.Keyhive.AgreeProps

/-!
# Property theorems: the content that operations name (C91, C92)

`E.Founded i heads`: the key with id `i` has signed nothing but delegations without a proof that name the content `heads` of `i`.
`NamesAll k me x`: the list `x` names the heads of every document that `me` is a member of, and nothing else. `Keeps k o`: the device
keeps the operation.
-/

namespace Verif.Keyhive.HeadsProps

open Verif.Group Verif.Cgka Verif.BeeKem Verif.Keyhive.Sample

variable {E : Env} {Ind : Id → Prop}

/-! ## C91: what a document was made with decides what every device takes it for -/

/-- C91, documents: a document founded on some content is never taken for a group, and every device that has it has these heads.
Missing from the full property: the key of the document must not name different content in different delegations
(`Keyhive.AgreeProps.C37_kind_fails`). -/
theorem C91_documents_partial (hI : E.Individuals Ind) {did : Id} {heads : List Nat} (hf : E.Founded did heads) (hne : heads ≠ [])
    {k : Keyhive} (hk : ReachPlain E Ind k) :
    AMap.get k.groups did = none ∧ ∀ doc, AMap.get k.docs did = some doc → doc.heads = heads :=
  ⟨(reach_found hI hf hk).2 hne, fun doc hd => ((reach_found hI hf hk).1 doc hd).1⟩

/-- C91, groups: a group founded on no content is never taken for a document.
Missing from the full property: as for documents. -/
theorem C91_groups_partial (hI : E.Individuals Ind) {gid : Id} (hf : E.Founded gid []) {k : Keyhive} (hk : ReachPlain E Ind k) :
    AMap.get k.docs gid = none := by
  cases hd : AMap.get k.docs gid with
  | none => rfl
  | some doc => exact absurd rfl ((reach_found hI hf hk).1 doc hd).2

/-- C91, making a document: it is recorded with the heads it was made with, and the delegations that found it are signed by its key,
have no proof and name just these heads. -/
theorem C91_new_document {k k' : Keyhive} {L : Local} {S : Op → Option Nat} {did i : Id} {co : List Agent} {heads : List Nat}
    (h : k.generateDoc E L S did co heads = (k', .ok i)) :
    i = did ∧ (∃ doc, AMap.get k'.docs did = some doc ∧ doc.heads = heads) ∧
      ∀ o, Keeps k' o → Keeps k o ∨ ∃ d, o = .dlg d ∧ d.issuer = did ∧ d.proof = none ∧ d.content = [(did, heads)] := by
  unfold Keyhive.generateDoc at h
  split at h
  · cases h
  · rename_i g hg
    simp only at h
    split at h
    · cases h
    · split at h
      · cases h
      · split at h
        · cases h
        · cases h
          obtain ⟨hs, rfl, h1, h2, h3⟩ := generate_ok hg
          refine ⟨rfl, ⟨_, AMap.get_insert_self _ _ _, rfl⟩, fun o ho => ?_⟩
          have ho : Stored _ o := (keeps_iff _ o).1 ho
          rcases (storeDlgs_facts (E := E) (AMap.values hs) k).2.2.2.2 o (stored_of rfl rfl ho) with h4 | ⟨d, hd, rfl⟩
          · exact .inl ((keeps_iff _ o).2 h4)
          · obtain ⟨p, hp, rfl⟩ := List.mem_map.1 hd
            obtain ⟨-, a, _, s, h4⟩ := h3 _ _ (AMap.get_of_mem h1 hp)
            exact .inr ⟨_, rfl, by rw [h4]; exact ⟨rfl, rfl, rfl⟩⟩

/-- C91, making a group: the delegations that found it are signed by its key, have no proof and name no content. -/
theorem C91_new_group {k k' : Keyhive} {S : Op → Option Nat} {gid i : Id} {co : List Agent}
    (h : k.generateGroup E S gid co = (k', .ok i)) :
    i = gid ∧ (∃ g, AMap.get k'.groups gid = some g) ∧
      ∀ o, Keeps k' o → Keeps k o ∨ ∃ d, o = .dlg d ∧ d.issuer = gid ∧ d.proof = none ∧ d.content = [] := by
  unfold Keyhive.generateGroup at h
  split at h
  · cases h
  · rename_i g hg
    cases h
    obtain ⟨hs, rfl, h1, h2, h3⟩ := generate_ok hg
    refine ⟨rfl, ⟨_, AMap.get_insert_self _ _ _⟩, fun o ho => ?_⟩
    have ho : Stored _ o := (keeps_iff _ o).1 ho
    rcases (storeDlgs_facts (E := E) (AMap.values hs) k).2.2.2.2 o (stored_of rfl rfl ho) with h4 | ⟨d, hd, rfl⟩
    · exact .inl ((keeps_iff _ o).2 h4)
    · obtain ⟨p, hp, rfl⟩ := List.mem_map.1 hd
      obtain ⟨-, a, _, s, h4⟩ := h3 _ _ (AMap.get_of_mem h1 hp)
      exact .inr ⟨_, rfl, by rw [h4]; exact ⟨rfl, rfl, rfl⟩⟩

/-- C91, later: whatever the device receives or does, the heads it has for a document stay.
Missing from the full property: the key of the document must not sign delegations with a proof (`KeptProps.C82_fails`). -/
theorem C91_stays_partial {did : Id} (ho : E.OnlyRoots did) {k k' : Keyhive} (h : Onward E did k k') {doc : Doc}
    (hd : AMap.get k.docs did = some doc) : ∃ doc', AMap.get k'.docs did = some doc' ∧ doc'.heads = doc.heads := by
  have key : Headed did doc.heads k' := by
    induction h with
    | refl => show (AMap.get k.docs did).map Doc.heads = _; rw [hd]; rfl
    | call c h hc hn ih => exact headed_call ho ih c hn
  unfold Headed at key
  cases he : AMap.get k'.docs did with
  | none => rw [he] at key; cases key
  | some d => rw [he] at key; exact ⟨d, rfl, Option.some.inj key⟩

/-- C91 fails: of two devices that ingest the same delegations of the key of a document, the first of which names its content, one takes it for a
document and the other, which happens to apply them in the other order, for a group. -/
theorem C91_fails : ∃ (E : Env) (k k1 k2 : Keyhive) (first second : SDlg), Reach E k ∧ E.NoClash ∧ Function.Injective E.hashEvent ∧
    first.issuer = 300 ∧ second.issuer = 300 ∧ first.content = [(300, [1])] ∧ first.proof = none ∧ second.proof = none ∧
    k.ingest E List.reverse [.dlg first, .dlg second] = (k2, some (.ok [])) ∧ k.ingest E List.reverse [.dlg second, .dlg first] = (k1, some (.ok [])) ∧
    AMap.get k2.docs 300 ≠ none ∧ AMap.get k2.groups 300 = none ∧ AMap.get k1.docs 300 = none ∧ AMap.get k1.groups 300 ≠ none :=
  ⟨Sample.E, k0, _, _, docAlice, AgreeProps.docBob, reach_k0, E_noClash, E_events, by decide, by decide, by decide, by decide, by decide,
    Prod.ext rfl (by decide +kernel), Prod.ext rfl (by decide +kernel), by decide +kernel, by decide +kernel, by decide +kernel, by decide +kernel⟩

/-- As before; the key of document 300 names the content 1 of it. -/
noncomputable def EF : Env :=
  { EP with validDlg := fun s => EP.validDlg s && (decide (s.issuer ≠ 300) || (s.proof.isNone && decide (headsIn s.content 300 = [1]))) &&
      (decide (s.issuer ≠ 200) || (s.proof.isNone && decide (headsIn s.content 200 = []))) }

theorem EF_individuals : EF.Individuals (fun i => i < 100) := by
  intro s h hp
  simp only [EF, Bool.and_eq_true] at h
  exact EP_individuals s h.1.1 hp

theorem EF_document : EF.Founded 300 [1] := by
  intro s h hi
  simp only [EF, Bool.and_eq_true, Bool.or_eq_true, decide_eq_true_eq, Option.isNone_iff_eq_none] at h
  exact h.1.2.resolve_left (fun h => h hi)

theorem EF_group : EF.Founded 200 [] := by
  intro s h hi
  simp only [EF, Bool.and_eq_true, Bool.or_eq_true, decide_eq_true_eq, Option.isNone_iff_eq_none] at h
  exact h.2.resolve_left (fun h => h hi)

-- A device is told of document 300 and of group 200.
example : ReachPlain EF (fun i => i < 100) (feed EF k0 [.dlg docAlice, .dlg kAlice]) ∧
    ((AMap.get (feed EF k0 [.dlg docAlice, .dlg kAlice]).docs 300).map Doc.heads = some [1]) ∧
    AMap.contains (feed EF k0 [.dlg docAlice, .dlg kAlice]).groups 200 = true :=
  ⟨plain_feed (by simp) (.start reg _ (by unfold Listed; decide +kernel)), by decide +kernel, by decide +kernel⟩

-- Agent 5 makes a group and a document.
example : (k0.generateGroup EL sg 200 []).2 = .ok 200 ∧ (m1.generateDoc EL L sg 300 [] [1]).2 = .ok 300 := by decide +kernel

-- Agent 5 has document 300, encrypts for it and adds Alice.
example : ER.OnlyRoots 300 ∧ Onward ER 300 w2 w3 ∧ (AMap.get w2.docs 300).map Doc.heads = some [1] := ⟨ER_roots, onward_w3, by decide +kernel⟩

/-! ## C92: operations name the content their author knows -/

theorem contentOf_mem {k : Keyhive} {docs : List Id} {i : Id} {hs : List Nat} :
    (i, hs) ∈ k.contentOf docs ↔ i ∈ docs ∧ ∃ doc, AMap.get k.docs i = some doc ∧ hs = doc.heads := by
  unfold Keyhive.contentOf
  simp only [List.mem_filterMap, Option.map_eq_some_iff, Prod.mk.injEq]
  constructor
  · rintro ⟨j, hj, doc, hd, rfl, rfl⟩; exact ⟨hj, doc, hd, rfl⟩
  · rintro ⟨hi, doc, hd, rfl⟩; exact ⟨i, hi, doc, hd, rfl, rfl⟩

/-- C92, revoking: every operation that a successful revocation makes names the heads of all documents the author can reach, and of no others.
Missing from the full property: the heads are those a document was made with, not those of what has been written to it since (`C92_fails`). -/
theorem C92_revoke_partial {k k' : Keyhive} (hr : Reach E k) (hw : AMap.WF k.world) (hme : ∀ doc, AMap.get k.docs k.reg.me ≠ some doc)
    (hS : ∀ did doc, AMap.get k.docs did = some doc → Sound k.world doc.group) {L : Local} {resource member : Id} {retain : Bool} {ops : List SOp}
    (h : k.revokeMember E L resource member retain = (k', .ok ops)) {o : Op} (ho : Keeps k' o) :
    Keeps k o ∨ NamesAll k k.reg.me (opContent o) := by
  have key : NamesAll k k.reg.me k.reachableContent := by
    intro i hs
    rw [Keyhive.reachableContent, contentOf_mem, AMap.mem_keys_iff, Option.ne_none_iff_exists']
    constructor
    · rintro ⟨h1, doc, hd, rfl⟩
      have hne : k.reg.me ≠ i := fun he => hme doc (by rw [he]; exact hd)
      obtain ⟨doc', h2, h3⟩ := (QueryProps.C59_documents hr hw hne (fun d h => hS i d h)).1 h1
      rw [hd] at h2
      cases h2
      exact ⟨doc, hd, h3, rfl⟩
    · rintro ⟨doc, hd, h3, rfl⟩
      have hne : k.reg.me ≠ i := fun he => hme doc (by rw [he]; exact hd)
      exact ⟨(QueryProps.C59_documents hr hw hne (fun d h => hS i d h)).2 ⟨doc, hd, h3⟩, doc, hd, rfl⟩
  rw [keeps_iff] at ho ⊢
  unfold Keyhive.revokeMember at h
  split at h
  · exact (revokeFromGroup_content h ho).imp (fun h => h) (fun he => by rw [he]; exact key)
  · exact (revokeFromDoc_content h ho).imp (fun h => h) (fun he => by rw [he]; exact key)

/-- C92, adding: the delegation that a successful addition makes names the heads of the documents the caller asked for, so far as the
device has them; for the resource itself, if it is a document, an empty list. It is the only new operation.
Missing from the full property: what has been written to the document itself is not named (`C92_fails`). -/
theorem C92_add_partial {k k' : Keyhive} {L : Local} {resource : Id} {who : Agent} {can : Access} {others : List Id} {d : Dlg} {ops : List SOp}
    (h : k.addMember E L resource who can others = (k', .ok (d, ops))) :
    (∀ i hs, (i, hs) ∈ d.content ↔ (i ∈ others ∧ ∃ doc, AMap.get k.docs i = some doc ∧ hs = doc.heads) ∨
      (AMap.get k.groups resource = none ∧ i = resource ∧ hs = [])) ∧
    ∀ o, Keeps k' o → Keeps k o ∨ o = .dlg d := by
  have store : ∀ {k1 : Keyhive}, k1.dlgs = (k.storeDlg E d).dlgs → k1.revs = (k.storeDlg E d).revs → ∀ o, Keeps k1 o → Keeps k o ∨ o = .dlg d := by
    intro k1 h1 h2 o ho
    rw [keeps_iff] at ho ⊢
    rcases (storeDlgs_facts (E := E) [d] k).2.2.2.2 o (stored_of h1 h2 ho) with h3 | ⟨d', hd, rfl⟩
    · exact .inl h3
    · rw [List.mem_singleton.1 hd]; exact .inr rfl
  unfold Keyhive.addMember at h
  split at h
  · rename_i hg
    rw [AMap.contains_iff, AMap.mem_keys_iff, Option.ne_none_iff_exists'] at hg
    have hc : d.content = k.contentOf others ∧ ∀ o, Keeps k' o → Keeps k o ∨ o = .dlg d := by
      unfold Keyhive.addMemberToGroup at h
      split at h
      · cases h
      · split at h
        · cases h
        · rename_i g' d' ha
          simp only at h
          split at h
          · have hs := propagateAdds_stores (E := E) (L := L) (gid := resource) (who := d'.delegate)
              (AMap.keys ({ k.storeDlg E d' with groups := AMap.insert k.groups resource g' } : Keyhive).docs)
              { k.storeDlg E d' with groups := AMap.insert k.groups resource g' } []
            split at h
            · cases h
            · rename_i heq
              cases h
              rw [heq] at hs
              exact ⟨addMember_content ha, store hs.1 hs.2⟩
          · cases h
            exact ⟨addMember_content ha, store rfl rfl⟩
    refine ⟨fun i hs => ?_, hc.2⟩
    rw [hc.1, contentOf_mem]
    constructor
    · exact .inl
    · rintro (h1 | ⟨h1, _⟩)
      · exact h1
      · obtain ⟨g, hg⟩ := hg
        rw [hg] at h1
        cases h1
  · rename_i hg
    have hn : AMap.get k.groups resource = none := by
      cases hx : AMap.get k.groups resource with
      | none => rfl
      | some g => exact absurd (by rw [AMap.contains_iff, AMap.mem_keys_iff, hx]; exact fun h => by cases h) hg
    split at h
    · cases h
    · have hc : d.content = (resource, []) :: k.contentOf others ∧ ∀ o, Keeps k' o → Keeps k o ∨ o = .dlg d := by
        unfold Keyhive.addMemberToDoc at h
        split at h
        · cases h
        · split at h
          · cases h
          · rename_i ha
            simp only at h
            split at h
            · split at h
              · cases h
              · split at h
                · cases h
                · cases h
                  exact ⟨addMember_content ha, store rfl rfl⟩
            · cases h
              exact ⟨addMember_content ha, store rfl rfl⟩
      refine ⟨fun i hs => ?_, hc.2⟩
      rw [hc.1, List.mem_cons, contentOf_mem, Prod.mk.injEq]
      constructor
      · rintro (h1 | h1)
        · exact .inr ⟨hn, h1⟩
        · exact .inl h1
      · rintro (h1 | ⟨-, h1⟩)
        · exact .inr h1
        · exact .inl h1

-- Agent 5 has document 300, adds Alice, naming the document's content in group 200, and revokes them.
example : Reach EL n3 ∧ AMap.WF n3.world ∧ (∀ doc, AMap.get n3.docs n3.reg.me ≠ some doc) ∧ isOk (n3.revokeMember EL L 300 1 true).2 = true ∧
    (∀ did doc, AMap.get n3.docs did = some doc → Sound n3.world doc.group) :=
  have hme : AMap.get n3.docs n3.reg.me = none := by decide +kernel
  ⟨reach_n3, by unfold AMap.WF; decide +kernel, fun doc h => (by rw [hme] at h; cases h), by decide +kernel,
    fun _ _ h => neat_sound (a := alice) reach_n3 (by decide +kernel) h⟩

example : isOk (m2.addMember EL L 200 ⟨.individual, 1⟩ .read [300]).2 = true ∧ isOk (m2.addMember EL L 300 ⟨.individual, 1⟩ .read []).2 = true := by
  decide +kernel

/-- C92 fails: agent 5 has encrypted content for document 300 and adds Alice. The delegation names no content of the document (and
the call would never have returned if it had been asked to name it). When Alice is revoked, the revocation names the content the
document was made with, though 42 has been written since. -/
theorem C92_fails : ∃ (E : Env) (L : Local) (k0 k k1 k2 : Keyhive) (alice : Agent) (d : Dlg) (ops ops' : List SOp) (e : EncContent) (r : Rev),
    Reach E k0 ∧ L.Honest E ∧ (AMap.get k0.docs 300).map Doc.heads = some [1] ∧
    k0.encryptContent E L 300 7 8 42 = (k, .ok (e, none)) ∧
    (k.addMember E L 300 alice .read [300]).2 = .error .hang ∧
    k.addMember E L 300 alice .read [] = (k1, .ok (d, ops)) ∧ d.content = [(300, [])] ∧
    k1.revokeMember E L 300 alice.id true = (k2, .ok ops') ∧ Keeps k2 (.rev r) ∧ ¬ Keeps k1 (.rev r) ∧ r.content = [(300, [1])] := by
  have h : (match (w2.addMember ER LR 300 alice .read []).2,
      ((w2.addMember ER LR 300 alice .read []).1.revokeMember ER LR 300 1 true).2,
      ((w2.addMember ER LR 300 alice .read []).1.revokeMember ER LR 300 1 true).1.revs,
      (w2.addMember ER LR 300 alice .read []).1.revs with
    | .ok (d, _), .ok _, [(_, r)], [] => decide (d.content = [(300, [])]) && decide (r.content = [(300, [1])])
    | _, _, _, _ => false) = true := by decide +kernel
  split at h
  · rename_i d ops ops' i r h1 h2 h3 h4
    simp only [Bool.and_eq_true, decide_eq_true_eq] at h
    refine ⟨ER, LR, w1, w2, _, _, alice, d, ops, ops', ⟨⟨701, 8, 7⟩, 42, ⟨701⟩, 2, 7, 8⟩, r, reach_w1, LR_honest, by decide +kernel,
      Prod.ext rfl (by decide +kernel), by decide +kernel, Prod.ext rfl h1, h.1, Prod.ext rfl h2, ⟨i, ?_⟩, ?_, h.2⟩
    · show AMap.get ((w2.addMember ER LR 300 alice .read []).1.revokeMember ER LR 300 1 true).1.revs i = some r
      rw [h3]; simp [AMap.get_cons]
    · rintro ⟨j, hj⟩
      rw [h4] at hj
      cases hj
  · cases h

end Verif.Keyhive.HeadsProps
