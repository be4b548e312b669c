import Verif.Keyhive.AccessLemmas
import Verif.Keyhive.QueryProps

/-!
# Property theorems: questions about access to a document (C99, C100)

`k.accessForDoc`, `k.bestAccessForDoc`, `k.docMemberCapabilities` and `k.revokedMembersForDoc` are the calls of the same name; an agent for which
`isMembered` is false is an individual or the device's own agent.
-/

namespace Verif.Keyhive.AccessProps

open Verif.Group Verif.Cgka Verif.BeeKem Relation

variable {E : Env}

/-! ## C99: who has access -/

/-- C99, who: an access is given for exactly the agents that are members of the document, directly or through groups. -/
theorem C99_access {k : Keyhive} (hr : Reach E k) {i did : Id} (hne : i ≠ did)
    (hS : ∀ doc, AMap.get k.docs did = some doc → Sound k.world doc.group) :
    (∃ x, k.accessForDoc i did = some x) ↔ ∃ doc, AMap.get k.docs did = some doc ∧ Within k.world doc.group i := by
  have hk := reach_kept hr
  unfold Keyhive.accessForDoc
  cases hd : AMap.get k.docs did with
  | none => simp
  | some doc =>
    simp only [Option.map_eq_some_iff, Option.some.injEq, exists_eq_left']
    constructor
    · rintro ⟨x, ⟨a, y⟩, h, -⟩
      exact ((Keyhive.listed_spec (hS doc hd)).1 a y h).2
    · intro h
      obtain ⟨a, x, h⟩ := (Keyhive.listed_spec (hS doc hd)).2 (by rw [(hk.docs hd).1]; exact hne) h
      exact ⟨x, (a, x), h, rfl⟩

/-- C99, the list: exactly the individuals (and the device's own agent) that are members of the document, directly or through groups, other than
the document; each once, with the access that asking for it gives. -/
theorem C99_list {k : Keyhive} (hr : Reach E k) {did : Id} (hS : ∀ doc, AMap.get k.docs did = some doc → Sound k.world doc.group) :
    (∀ a x, (a, x) ∈ k.docMemberCapabilities did → k.accessForDoc a.id did = some x) ∧
    (∀ a, (∃ x, (a, x) ∈ k.docMemberCapabilities did) ↔ a.isMembered = false ∧ a.id ≠ did ∧
      ∃ doc links, AMap.get k.docs did = some doc ∧ Path k.world doc.group a links) ∧
    ((k.docMemberCapabilities did).map (fun p => p.1.id)).Nodup := by
  have hk := reach_kept hr
  unfold Keyhive.docMemberCapabilities Keyhive.accessForDoc
  cases hd : AMap.get k.docs did with
  | none => simp
  | some doc =>
    have hs := hS doc hd
    have hw := Keyhive.listed_wf k doc.group
    dsimp only
    simp only [mem_people hw, Option.some.injEq, exists_and_left, exists_eq_left']
    refine ⟨?_, fun a => ⟨?_, ?_⟩, ?_⟩
    · rintro a x ⟨-, i, -, h⟩
      rw [((Keyhive.listed_spec hs).1 a x h).1, h]
      rfl
    · rintro ⟨ha, x, i, hi, h⟩
      obtain ⟨caps, hc⟩ := transitive_ok k.world doc.group
      have he : k.listed doc.group = caps := by unfold Keyhive.listed; rw [hc]
      rw [he] at h
      obtain ⟨e, links, hp, -⟩ := (transitive_spec hs hc).1 i a x h
      exact ⟨ha, by rw [e]; exact hi, links, hp⟩
    · rintro ⟨ha, hi, links, hp⟩
      have hid := (hk.docs hd).1
      obtain ⟨b, x, h⟩ := (Keyhive.listed_spec (i := a.id) hs).2 (by rw [hid]; exact hi) ⟨a, links, hp, rfl⟩
      obtain ⟨caps, hc⟩ := transitive_ok k.world doc.group
      have he : k.listed doc.group = caps := by unfold Keyhive.listed; rw [hc]
      rw [he] at h
      obtain ⟨e, links', hp', -⟩ := (transitive_spec hs hc).1 _ b x h
      have := Trans.path_agree hs hp' hp e
      subst this
      exact ⟨ha, x, b.id, hi, by rw [he]; exact h⟩
    · refine (people_ids fun p hp => ?_).nodup hw
      exact ((Keyhive.listed_spec hs).1 _ _ (AMap.get_of_mem hw hp)).1

/-- C99, with what everyone may do: the largest of the agent's own access and that of the public agent. -/
theorem C99_best {k : Keyhive} {i did : Id} {x : Access} :
    k.bestAccessForDoc i did = some x ↔ (k.accessForDoc i did = some x ∨ k.accessForDoc k.reg.pub did = some x) ∧
      ∀ j y, j = i ∨ j = k.reg.pub → k.accessForDoc j did = some y → y ≤ x := by
  unfold Keyhive.bestAccessForDoc Keyhive.accessForDoc
  cases hd : AMap.get k.docs did with
  | none => simp
  | some doc =>
    dsimp only
    have hle : ∀ a : Access, a ≤ a := fun a => Nat.le_refl _
    have hanti : ∀ a b : Access, a ≤ b → b ≤ a → a = b := by intro a b; cases a <;> cases b <;> decide
    have hmax : ∀ a b : Access, (Access.max a b = a ∨ Access.max a b = b) ∧ a ≤ Access.max a b ∧ b ≤ Access.max a b := by
      intro a b; cases a <;> cases b <;> decide
    cases h1 : (AMap.get (k.listed doc.group) i).map (·.2) with
    | none =>
      cases h2 : (AMap.get (k.listed doc.group) k.reg.pub).map (·.2) with
      | none => simp
      | some p =>
        constructor
        · intro h
          cases h
          refine ⟨.inr rfl, ?_⟩
          rintro j y (rfl | rfl) hy
          · rw [h1] at hy; cases hy
          · rw [h2] at hy; cases hy; exact hle _
        · rintro ⟨h | h, -⟩
          · cases h
          · exact h
    | some d =>
      cases h2 : (AMap.get (k.listed doc.group) k.reg.pub).map (·.2) with
      | none =>
        constructor
        · intro h
          cases h
          refine ⟨.inl rfl, ?_⟩
          rintro j y (rfl | rfl) hy
          · rw [h1] at hy; cases hy; exact hle _
          · rw [h2] at hy; cases hy
        · rintro ⟨h | h, -⟩
          · exact h
          · cases h
      | some p =>
        obtain ⟨m1, m2, m3⟩ := hmax d p
        constructor
        · intro h
          cases h
          refine ⟨m1.imp (fun e => by rw [e]) (fun e => by rw [e]), ?_⟩
          rintro j y (rfl | rfl) hy
          · rw [h1] at hy; cases hy; exact m2
          · rw [h2] at hy; cases hy; exact m3
        · rintro ⟨h, hall⟩
          have e1 := hall i d (.inl rfl) h1
          have e2 := hall k.reg.pub p (.inr rfl) h2
          have : Access.max d p = x := by
            refine hanti _ _ ?_ ?_
            · rcases m1 with e | e <;> rw [e] <;> assumption
            · rcases h with h | h <;> cases h <;> assumption
          exact congrArg some this

/-- C99, how much: when the groups in the document contain no further groups, the access given is at most every link of some path to the
agent. Missing: deeper nesting (`Group.Props.C32_fails`), and that it is the largest such (`C99_fails`). -/
theorem C99_value_partial {k : Keyhive} (hr : Reach E k) {i did : Id} (hne : i ≠ did) {x : Access} (h : k.accessForDoc i did = some x)
    (hS : ∀ doc, AMap.get k.docs did = some doc → Sound k.world doc.group ∧ Flat k.world doc.group ∧ OwnMembers k.world doc.group) :
    ∃ doc a links, AMap.get k.docs did = some doc ∧ a.id = i ∧ Path k.world doc.group a links ∧ ∀ l ∈ links, x ≤ l := by
  have hk := reach_kept hr
  unfold Keyhive.accessForDoc at h
  cases hd : AMap.get k.docs did with
  | none => rw [hd] at h; cases h
  | some doc =>
    rw [hd] at h
    obtain ⟨⟨a, y⟩, h2, e⟩ := Option.map_eq_some_iff.1 h
    cases e
    obtain ⟨s1, s2, s3⟩ := hS doc hd
    obtain ⟨caps, hc⟩ := transitive_ok k.world doc.group
    have he : k.listed doc.group = caps := by unfold Keyhive.listed; rw [hc]
    rw [he] at h2
    obtain ⟨e, links, hp, hl⟩ := Trans.transitive_flat s1 s2 s3 hc h2 (by rw [(hk.docs hd).1]; exact hne)
    exact ⟨doc, a, links, rfl, e, hp, hl⟩

/-- A check for `Flat` and `OwnMembers`. -/
def shallow (W : World) (g : Group) : Bool :=
  let ds := g.members.flatMap (·.2)
  let all := W.map (fun p => (p.1, p.2.members.flatMap (·.2)))
  ds.all (fun d => decide (d.subject = g.id)) && all.all (fun p => p.2.all (fun d => decide (d.subject = p.1))) &&
  ds.all (fun d => decide (d.delegate.id = g.id) || all.all (fun p => decide (p.1 ≠ d.delegate.id) || p.2.all (fun d' =>
    !d'.delegate.isMembered || decide (d'.delegate.id = g.id) || (AMap.get W d'.delegate.id).isNone)))

theorem mem_flat {g : Group} {m : Id} {d : Dlg} (h : g.MemberBy m d) : d ∈ g.members.flatMap (·.2) := by
  obtain ⟨ds, h1, h2⟩ := h
  exact List.mem_flatMap.2 ⟨_, AMap.mem_of_get h1, h2⟩

theorem shallow_sound {W : World} {g : Group} (h : shallow W g = true) : Flat W g ∧ OwnMembers W g := by
  unfold shallow at h
  simp only [Bool.and_eq_true, List.all_eq_true, decide_eq_true_eq, Bool.or_eq_true, Bool.not_eq_true', List.mem_map, forall_exists_index,
    and_imp] at h
  obtain ⟨⟨h1, h2⟩, h3⟩ := h
  refine ⟨fun m d g' m' d' hm hne hg hm' hk hne' => ?_, fun m d hm => h1 d (mem_flat hm), fun i g' m d hg hm => ?_⟩
  · rcases h3 d (mem_flat hm) with e | e
    · exact absurd e hne
    · rcases e _ _ (AMap.mem_of_get hg) rfl with e | e
      · exact absurd rfl e
      · rcases e d' (mem_flat hm') with (e | e) | e
        · rw [hk] at e; cases e
        · exact absurd e hne'
        · simpa using e
  · exact h2 _ _ (AMap.mem_of_get hg) rfl d (mem_flat hm)

-- Agent 5 has a document that group 200 may relay; Alice is in the group.
example : (∀ doc, AMap.get Sample.m4.docs 300 = some doc → Sound Sample.m4.world doc.group) ∧
    Sample.m4.accessForDoc 1 300 = some .relay ∧ Sample.m4.bestAccessForDoc 1 300 = some .relay ∧ Sample.m4.accessForDoc 2 300 = none ∧
    (Sample.m4.docMemberCapabilities 300).map (fun p => (p.1.id, p.2)) = [(1, .relay), (5, .relay)] :=
  ⟨fun _ h => Sample.neat_sound (a := Sample.alice) Sample.reach_m4 (by decide +kernel) h, by decide +kernel, by decide +kernel, by decide +kernel,
    by decide +kernel⟩

example : ∀ doc, AMap.get Sample.m4.docs 300 = some doc → Flat Sample.m4.world doc.group ∧ OwnMembers Sample.m4.world doc.group := by
  intro doc hd
  have h : ((AMap.get Sample.m4.docs 300).all (fun doc => shallow Sample.m4.world doc.group)) = true := by decide +kernel
  rw [hd] at h
  exact shallow_sound h

/-- C99 fails for the access: agent 5, who created the document and is its admin, is said to be allowed to relay it, because it is also in a
group that may. -/
theorem C99_fails : ∃ (E : Env) (k : Keyhive) (doc : Doc) (d : Dlg), Reach E k ∧ AMap.get k.docs 300 = some doc ∧
    doc.group.MemberBy 5 d ∧ d.can = .admin ∧ k.accessForDoc 5 300 = some .relay ∧ k.bestAccessForDoc 5 300 = some .relay := by
  obtain ⟨doc, d, h1, h2, h3⟩ : ∃ doc d, AMap.get Sample.m4.docs 300 = some doc ∧ doc.group.MemberBy 5 d ∧ d.can = .admin := by
    have h : (match AMap.get Sample.m4.docs 300 with
        | some doc => match AMap.get doc.group.members 5 with
          | some (d :: _) => decide (d.can = .admin)
          | _ => false
        | none => false) = true := by decide +kernel
    split at h
    · rename_i doc hd
      split at h
      · rename_i d ds hm
        exact ⟨doc, d, hd, ⟨d :: ds, hm, List.mem_cons_self⟩, of_decide_eq_true h⟩
      · cases h
    · cases h
  exact ⟨_, _, doc, d, Sample.reach_m4, h1, h2, h3, by decide +kernel, by decide +kernel⟩

/-! ## C100: who is shown as revoked -/

/-! Document 300 of agent 5, which group 200 may relay. -/

/-- Alice may read the document. -/
noncomputable def u1 : Keyhive := (Sample.m3.addMemberToDoc Sample.EL Sample.L 300 ⟨.individual, 1⟩ .read []).1
/-- And becomes a member of the group. -/
noncomputable def u2 : Keyhive := (u1.addMemberToGroup Sample.EL Sample.L 200 ⟨.individual, 1⟩ .read []).1
/-- And is revoked from the document. -/
noncomputable def u3 : Keyhive := (u2.revokeFromDoc Sample.EL Sample.L 300 1 true []).1

theorem reach_u3 : Reach Sample.EL u3 :=
  .call (.revokeFromDoc Sample.L 300 1 true []) (.call (.addToGroup Sample.L 200 ⟨.individual, 1⟩ .read [])
    (.call (.addToDoc Sample.L 300 ⟨.individual, 1⟩ .read []) Sample.reach_m3 Sample.L_signs) Sample.L_signs) Sample.L_signs

/-- The delegation to agent 5 with which the document was made. -/
def root : SDlg := ⟨300, 300005, 5, .admin, none, [], [(300, [1])]⟩
/-- Agent 5 lets Alice read. -/
def toAlice : SDlg := ⟨5, 5001, 1, .read, some (Sample.hashDlg root), [], []⟩
/-- Alice lets Carol read. -/
def toCarol : SDlg := ⟨1, 1002, 3, .read, some (Sample.hashDlg toAlice), [], []⟩
/-- Carol lets Bob read. -/
def toBob : SDlg := ⟨3, 3001, 2, .read, some (Sample.hashDlg toCarol), [], []⟩

/-- Agent 5 lets Alice read document 300, Alice lets Carol, and Carol lets Bob. Then Alice is revoked. -/
noncomputable def v1 : Keyhive :=
  (((Sample.n3.receive Sample.EL (.dlg toCarol)).1.receive Sample.EL (.dlg toBob)).1.revokeFromDoc Sample.EL Sample.L 300 1 false []).1
/-- Carol is revoked. -/
noncomputable def v2 : Keyhive := (v1.revokeFromDoc Sample.EL Sample.L 300 3 false []).1

theorem reach_v1 : Reach Sample.EL v1 := .call (.revokeFromDoc Sample.L 300 1 false [])
  (.call (.receive (.dlg toBob)) (.call (.receive (.dlg toCarol)) Sample.reach_n3 trivial) trivial) Sample.L_signs
theorem reach_v2 : Reach Sample.EL v2 := .call (.revokeFromDoc Sample.L 300 3 false []) reach_v1 Sample.L_signs

/-- C100, the list: whoever is in it is an individual without membership of its own in the document, a delegation to it was revoked, and the
access shown is the largest that was revoked. -/
theorem C100_listed {k : Keyhive} (hr : Reach E k) {did : Id} {a : Agent} {x : Access} (h : (a, x) ∈ k.revokedMembersForDoc did) :
    ∃ doc, AMap.get k.docs did = some doc ∧ a.isMembered = false ∧ (¬ ∃ d, doc.group.MemberBy a.id d) ∧
      (∃ r, doc.group.InEffect r ∧ r.revoke.delegate = a) ∧ (∃ r, doc.group.InEffect r ∧ r.revoke.delegate.id = a.id ∧ r.revoke.can = x) ∧
      ∀ r, doc.group.InEffect r → r.revoke.delegate.id = a.id → r.revoke.can ≤ x := by
  have hk := reach_kept hr
  unfold Keyhive.revokedMembersForDoc at h
  cases hd : AMap.get k.docs did with
  | none => rw [hd] at h; cases h
  | some doc =>
    rw [hd] at h
    have hn := doc.group.noted
    have hm := fun {r} => mem_active (r := r) (hk.docs hd).2.2
    obtain ⟨ha, i, hi, hg⟩ := (mem_people hn.wf).1 h
    obtain ⟨h1, rfl, ⟨r, hr, h3⟩, ⟨r', hr', h4⟩, h5⟩ := hn.entry hg
    refine ⟨doc, rfl, ha, ?_, ⟨r, hm.1 hr, h3⟩, ⟨r', hm.1 hr', h4⟩, fun s hs e => h5 s (hm.2 hs) e⟩
    rintro ⟨d, ds, h, -⟩
    rw [h1] at h
    cases h

/-- C100, nobody is missing: an individual that is not a member, to whom a delegation was revoked, is in the list (once), if nobody else has its
id. Missing: members that lost their membership with that of another (`C100_fails`). -/
theorem C100_complete_partial {k : Keyhive} (hr : Reach E k) {did : Id} {doc : Doc} (hd : AMap.get k.docs did = some doc) {r : Rev}
    (he : doc.group.InEffect r) (hi : r.revoke.delegate.isMembered = false) (hne : r.revoke.delegate.id ≠ did)
    (hm : ¬ ∃ d, doc.group.MemberBy r.revoke.delegate.id d)
    (ho : ∀ r', doc.group.InEffect r' → r'.revoke.delegate.id = r.revoke.delegate.id → r'.revoke.delegate = r.revoke.delegate) :
    ∃! x, (r.revoke.delegate, x) ∈ k.revokedMembersForDoc did := by
  have hk := reach_kept hr
  have hn := doc.group.noted
  have hma := fun {r} => mem_active (r := r) (hk.docs hd).2.2
  have ht := (hk.docs hd).2.2.tidy
  have hnone : AMap.get doc.group.members r.revoke.delegate.id = none := by
    cases h : AMap.get doc.group.members r.revoke.delegate.id with
    | none => rfl
    | some ds =>
      cases ds with
      | nil => exact absurd rfl (ht.2.1 _ _ h)
      | cons d ds => exact absurd ⟨d, d :: ds, h, List.mem_cons_self⟩ hm
  obtain ⟨a, x, hg⟩ := hn.all r (hma.2 he) hnone
  obtain ⟨-, hid, ⟨r', hr', rfl⟩, -, -⟩ := hn.entry hg
  rw [ho r' (hma.1 hr') hid] at hg
  unfold Keyhive.revokedMembersForDoc
  rw [hd]
  refine ⟨x, (mem_people hn.wf).2 ⟨hi, _, hne, hg⟩, fun y hy => ?_⟩
  obtain ⟨-, i, -, hy⟩ := (mem_people hn.wf).1 hy
  obtain ⟨-, e, -⟩ := hn.entry hy
  rw [← e, hg] at hy
  cases hy
  rfl

-- Alice was revoked from the document, and is listed with what they could do; so is Carol.
example : (u3.revokedMembersForDoc 300).map (fun p => (p.1, p.2)) = [(⟨.individual, 1⟩, .read)] ∧
    (v2.revokedMembersForDoc 300).map (fun p => (p.1, p.2)) = [(⟨.individual, 1⟩, .read), (⟨.individual, 3⟩, .read)] := by decide +kernel

-- One revocation is in effect, of the delegation to Alice, who is no member any more.
example : (AMap.get u3.docs 300).map (fun d => ((AMap.values d.group.active).map (fun r => r.revoke.delegate), AMap.keys d.group.members)) =
    some ([⟨.individual, 1⟩], [200, 5]) := by decide +kernel

/-- C100 fails. (1) Alice is listed as revoked although they have access, through a group. (2) Bob had access through a delegation by Carol;
when Carol is revoked, Bob has no access any more, and is not listed. -/
theorem C100_fails :
    (∃ (E : Env) (k : Keyhive), Reach E k ∧ (⟨.individual, 1⟩, .read) ∈ k.revokedMembersForDoc 300 ∧ k.accessForDoc 1 300 = some .relay) ∧
    ∃ (E : Env) (L : Local) (k k' : Keyhive) (ops : List SOp), Reach E k ∧ L.Honest E ∧ k.revokeFromDoc E L 300 3 false [] = (k', .ok ops) ∧
      k.accessForDoc 2 300 = some .read ∧ k'.accessForDoc 2 300 = none ∧ ∀ x, (⟨.individual, 2⟩, x) ∉ k'.revokedMembersForDoc 300 := by
  refine ⟨⟨_, u3, reach_u3, by decide +kernel, by decide +kernel⟩, ?_⟩
  obtain ⟨ops, ho⟩ : ∃ ops, (v1.revokeFromDoc Sample.EL Sample.L 300 3 false []).2 = .ok ops := by
    have h : Sample.isOk (v1.revokeFromDoc Sample.EL Sample.L 300 3 false []).2 = true := by decide +kernel
    cases hr : (v1.revokeFromDoc Sample.EL Sample.L 300 3 false []).2 with
    | ok ops => exact ⟨ops, rfl⟩
    | error e => rw [hr] at h; cases h
  refine ⟨_, _, v1, v2, ops, reach_v1, Sample.L_signs, Prod.ext rfl ho, by decide +kernel, by decide +kernel, ?_⟩
  intro x
  cases x <;> decide +kernel

end Verif.Keyhive.AccessProps
