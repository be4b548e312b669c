import Verif.Keyhive.QuerySample
import Verif.Keyhive.SentLemmas
import Verif.Group.FlatLemmas

/-!
# Property theorems: what a device tells an agent (C39, C56, C59, C75)

`Within W g i`: the agent with id `i` is a member of the group, directly or through others. `g.Holds o`: the operation is in the past of
a head of the group. `Dep a b`: the operation `a` refers to `b`, as proof, as revoked delegation or as a revocation it came after.
`k.membershipOpsFor E a` are the membership operations selected for the agent, under their digests.
-/

namespace Verif.Keyhive.QueryProps

open Verif.Group Verif.Cgka Verif.BeeKem Relation

variable {E : Env}

/-! ## C59: reachable documents and groups -/

/-- C59, which documents: an agent is told of a document exactly when it is a member of it, directly or through groups. -/
theorem C59_documents {k : Keyhive} (hr : Reach E k) (hw : AMap.WF k.world) {i did : Id} (hne : i ≠ did)
    (hS : ∀ doc, AMap.get k.docs did = some doc → Sound k.world doc.group) :
    (∃ x, AMap.get (k.docsReachable i) did = some x) ↔ ∃ doc, AMap.get k.docs did = some doc ∧ Within k.world doc.group i := by
  have hk := reach_kept hr
  constructor
  · rintro ⟨x, h⟩
    obtain ⟨doc, a, h1, h2⟩ := (Keyhive.docsReachable_iff hk hw).1 h
    exact ⟨doc, h1, ((Keyhive.listed_spec (hS doc h1)).1 a x h2).2⟩
  · rintro ⟨doc, h1, h2⟩
    obtain ⟨a, x, h3⟩ := (Keyhive.listed_spec (hS doc h1)).2 (by rw [(hk.docs h1).1]; exact hne) h2
    exact ⟨x, (Keyhive.docsReachable_iff hk hw).2 ⟨doc, a, h1, h3⟩⟩

/-- C59, which groups and documents: the same for both together. -/
theorem C59_groups {k : Keyhive} (hr : Reach E k) (hw : AMap.WF k.world) {i gid : Id} (hne : i ≠ gid)
    (hS : ∀ g, AMap.get k.world gid = some g → Sound k.world g) {g : Group} :
    (∃ x, AMap.get (k.memberedReachable i) gid = some (g, x)) ↔ AMap.get k.world gid = some g ∧ Within k.world g i := by
  have hk := reach_kept hr
  constructor
  · rintro ⟨x, h⟩
    obtain ⟨h1, a, h2⟩ := (Keyhive.memberedReachable_iff hk hw).1 h
    exact ⟨h1, ((Keyhive.listed_spec (hS g h1)).1 a x h2).2⟩
  · rintro ⟨h1, h2⟩
    obtain ⟨a, x, h3⟩ := (Keyhive.listed_spec (hS g h1)).2 (by rw [(hk.good h1).1]; exact hne) h2
    exact ⟨x, (Keyhive.memberedReachable_iff hk hw).2 ⟨h1, a, h3⟩⟩

/-- C59, the access: when the groups in the document contain no further groups, the access shown is at most every link of some path
to the agent. Missing: deeper nesting, where it is not (`Group.Props.C32_fails`), and that it is the largest (`C59_fails`). -/
theorem C59_access_partial {k : Keyhive} (hr : Reach E k) (hw : AMap.WF k.world) {i did : Id} (hne : i ≠ did) {x : Access}
    (h : AMap.get (k.docsReachable i) did = some x)
    (hS : ∀ doc, AMap.get k.docs did = some doc → Sound k.world doc.group ∧ Flat k.world doc.group ∧ OwnMembers k.world doc.group) :
    ∃ doc a links, AMap.get k.docs did = some doc ∧ a.id = i ∧ Path k.world doc.group a links ∧ ∀ l ∈ links, x ≤ l := by
  have hk := reach_kept hr
  obtain ⟨doc, a, h1, h2⟩ := (Keyhive.docsReachable_iff hk hw).1 h
  obtain ⟨s1, s2, s3⟩ := hS doc h1
  obtain ⟨caps, hc⟩ := transitive_ok k.world doc.group
  have he : k.listed doc.group = caps := by unfold Keyhive.listed; rw [hc]
  rw [he] at h2
  obtain ⟨e, links, hp, hl⟩ := Trans.transitive_flat s1 s2 s3 hc h2 (by rw [(hk.docs h1).1]; exact hne)
  exact ⟨doc, a, links, h1, e, hp, hl⟩

-- Alice reads group 200, which may relay document 300.
example : AMap.WF Sample.m4.world ∧ AMap.get (Sample.m4.docsReachable 1) 300 = some .relay ∧
    (∀ doc, AMap.get Sample.m4.docs 300 = some doc → Sound Sample.m4.world doc.group) :=
  ⟨by unfold AMap.WF; decide +kernel, by decide +kernel,
    fun _ h => Sample.neat_sound (a := Sample.alice) Sample.reach_m4 (by decide +kernel) h⟩

/-- C59 fails for the access: agent 5, who created the document and is its admin, is told it may relay it, because it is also in a
group that may. -/
theorem C59_fails : ∃ (E : Env) (k : Keyhive) (doc : Doc) (d : Dlg), Reach E k ∧ AMap.get k.docs 300 = some doc ∧
    doc.group.MemberBy 5 d ∧ d.can = .admin ∧ d.delegate.id = k.reg.me ∧ AMap.get (k.docsReachable k.reg.me) 300 = some .relay := by
  have h : (match AMap.get Sample.m4.docs 300 with
      | some doc => match AMap.get doc.group.members 5 with
        | some (d :: _) => decide (d.can = .admin ∧ d.delegate.id = Sample.m4.reg.me ∧
            AMap.get (Sample.m4.docsReachable Sample.m4.reg.me) 300 = some .relay)
        | _ => false
      | none => false) = true := by decide +kernel
  split at h
  · rename_i doc hd
    split at h
    · rename_i d ds hm
      have := of_decide_eq_true h
      exact ⟨_, _, doc, d, Sample.reach_m4, hd, ⟨d :: ds, hm, List.mem_cons_self⟩, this⟩
    · cases h
  · cases h

/-! ## C39: what is selected is closed under dependencies -/

/-- C39, the selection: everything a selected operation refers to is selected too. Missing: that an agent that receives what is
selected can apply it, which fails (`C39_fails`). -/
theorem C39_closed_partial {k : Keyhive} (hr : Reach E k) (hw : AMap.WF k.world) (hD : Distinct E k) {a : Agent} {h : Nat} {o : Op}
    (ho : AMap.get (k.membershipOpsFor E a) h = some o) :
    h = E.opDigest o ∧ ∀ b, Dep o b → AMap.get (k.membershipOpsFor E a) (E.opDigest b) = some b := by
  have hk := reach_kept hr
  have ha := Keyhive.apart_of_distinct hw hD
  obtain ⟨h1, s, hs, hp⟩ := (Keyhive.single_iff hk hw ha).1 ho
  exact ⟨h1, fun b hb => (Keyhive.single_iff hk hw ha).2 ⟨rfl, s, hs, hp.tail (Keyhive.mem_edges.2 (.inl hb))⟩⟩

/-- The same without assuming anything about digests: under the digest of what a selected operation refers to there is something. -/
theorem C39_digests_partial {k : Keyhive} (hr : Reach E k) (hw : AMap.WF k.world) {a : Agent} {h : Nat} {o : Op}
    (ho : AMap.get (k.membershipOpsFor E a) h = some o) :
    h = E.opDigest o ∧ ∀ b, Dep o b → AMap.contains (k.membershipOpsFor E a) (E.opDigest b) = true := by
  have hc := Keyhive.single_closed (E := E) (reach_kept hr) hw a
  exact ⟨(hc.key ho).1, fun b hb => hc.next ho b (Keyhive.mem_edges.2 (.inl hb))⟩

/-- Nothing is selected that the device does not hold. -/
theorem C39_held {k : Keyhive} (hr : Reach E k) (hw : AMap.WF k.world) (hD : Distinct E k) {a : Agent} {h : Nat} {o : Op}
    (ho : AMap.get (k.membershipOpsFor E a) h = some o) : Known k o := by
  have hk := reach_kept hr
  obtain ⟨-, s, hs, hp⟩ := (Keyhive.single_iff hk hw (Keyhive.apart_of_distinct hw hD)).1 ho
  have : o ∈ k.everyOp := by
    have h0 := Keyhive.starts_every hk hw s hs
    clear ho
    induction hp with
    | refl => exact h0
    | tail _ he ih => exact Keyhive.everyOp_edges _ ih _ he
  rcases Keyhive.mem_everyOp.1 this with ⟨i, g, x, hm, hx, hr⟩ | h
  · exact .inl ⟨i, g, AMap.get_of_mem hw hm, x, hx, hr⟩
  · exact .inr h

-- Carol is sent the delegation to them, its proof, and the delegations of the team.
example : AMap.WF Sample.q1.world ∧ Distinct Sample.E Sample.q1 ∧
    Sample.tags (Sample.q1.membershipOpsFor Sample.E Sample.carol) = [200001, 1000, 100001, 2001] :=
  ⟨by unfold AMap.WF; decide +kernel, Sample.distinct_of (by decide +kernel), by decide +kernel⟩

/-- C39 fails twice. (1) Bob, as a member of a team, added Carol to a group, and was then taken out of the team. A new device of Carol
ingests exactly the events selected for Carol: two stay pending, because nothing about Bob's keys is selected, and Carol is not a
member of the group there. (2) A document is a member of a group: nothing about the document is selected, and a delegation stays
pending. -/
theorem C39_fails : ∃ (E : Env) (k k' c : Keyhive), E.NoClash ∧ Reach E k ∧ Reach E k' ∧ Distinct E k ∧ Distinct E k' ∧ Reach E c ∧
    c.reg.me = 3 ∧ c.getAgent 3 ≠ none ∧
    (∃ x, (3, x) ∈ Sample.shown k 100) ∧ (∃ x, (3, x) ∈ Sample.shown k' 100) ∧
    (∃ es, (c.ingest E id (k.eventsFor E ⟨.individual, 3⟩)).2 = some (.ok es) ∧ es.length = 2) ∧
    (∀ x, (3, x) ∉ Sample.shown (c.ingest E id (k.eventsFor E ⟨.individual, 3⟩)).1 100) ∧
    ∃ es, (c.ingest E id (k'.eventsFor E ⟨.individual, 3⟩)).2 = some (.ok es) ∧ es.length = 1 := by
  have hlen : ∀ (x : Option (Except Err (List Event))) n, (match x with | some (.ok es) => decide (es.length = n) | _ => false) = true →
      ∃ es, x = some (.ok es) ∧ es.length = n := by
    intro x n h
    split at h
    · exact ⟨_, rfl, of_decide_eq_true h⟩
    · cases h
  refine ⟨Sample.E, Sample.q1, Sample.q4, Sample.c0, Sample.E_noClash, Sample.reach_feed Sample.reach_k0,
    Sample.reach_feed Sample.reach_k0, Sample.distinct_of (by decide +kernel), Sample.distinct_of (by decide +kernel), .start _ _, rfl,
    by decide +kernel, ⟨.edit, by decide +kernel⟩, ⟨.read, by decide +kernel⟩, hlen _ _ (by decide +kernel), ?_, hlen _ _ (by decide +kernel)⟩
  intro x
  have : Sample.shown (Sample.c0.ingest Sample.E id (Sample.q1.eventsFor Sample.E ⟨.individual, 3⟩)).1 100 = [(1, .admin), (200, .admin)] := by
    decide +kernel
  rw [this]
  simp

/-! ## C75: what is selected is enough -/

/-- C75 for the groups and documents the agent is a member of: everything they hold is selected. Missing: groups nested in them
(`C75_nested_partial`, `C75_fails`). -/
theorem C75_own_partial {k : Keyhive} (hr : Reach E k) (hw : AMap.WF k.world) (hD : Distinct E k) {a : Agent} {gid : Id} {g : Group}
    (hg : AMap.get k.world gid = some g) (hS : Sound k.world g) (hne : a.id ≠ gid) (hm : Within k.world g a.id) {o : Op}
    (ho : g.Holds o) : AMap.get (k.membershipOpsFor E a) (E.opDigest o) = some o := by
  have hk := reach_kept hr
  have he := (hk.good hg).1
  obtain ⟨b, x, hl⟩ := (Keyhive.listed_spec hS).2 (by rw [he]; exact hne) hm
  obtain ⟨s, hs, hp⟩ := ho
  refine (Keyhive.single_iff hk hw (Keyhive.apart_of_distinct hw hD)).2 ⟨rfl, s, ?_, ?_⟩
  · exact (Keyhive.mem_starts hk hw).2 (.inl ⟨g, (Keyhive.mem_allGroups hk hw).2 (by rw [he]; exact hg),
      by rw [AMap.contains, hl]; rfl, hs⟩)
  · exact ReflTransGen.mono (fun a b h => Keyhive.mem_edges.2 (.inl h)) _ _ hp

/-- C75 for nested groups: with a delegation to a group, the heads of the group's delegations and everything in their past are
selected. Missing: the group's revocations. -/
theorem C75_nested_partial {k : Keyhive} (hr : Reach E k) (hw : AMap.WF k.world) (hD : Distinct E k) {a : Agent} {h : Nat} {d : Dlg}
    (hd : AMap.get (k.membershipOpsFor E a) h = some (.dlg d)) (hk : d.delegate.kind = .group) {g : Group}
    (hg : AMap.get k.groups d.delegate.id = some g) {d' : Dlg} (hh : d' ∈ AMap.values g.dlgHeads) {o : Op}
    (ho : ReflTransGen Dep (.dlg d') o) : AMap.get (k.membershipOpsFor E a) (E.opDigest o) = some o := by
  have hkept := reach_kept hr
  have ha := Keyhive.apart_of_distinct hw hD
  obtain ⟨_, s, hs, hp⟩ := (Keyhive.single_iff hkept hw ha).1 hd
  refine (Keyhive.single_iff hkept hw ha).2 ⟨rfl, s, hs, (hp.tail (c := .dlg d') ?_).trans ?_⟩
  · exact Keyhive.mem_edges.2 (.inr ⟨rfl, d, g, d', rfl, hk, hg, hh, rfl⟩)
  · exact ReflTransGen.mono (fun a b h => Keyhive.mem_edges.2 (.inl h)) _ _ ho

/-- Every revocation about the agent that the device stores is selected, so that an agent learns that it was taken out; the active agent
and the individual with its id are the same agent. -/
theorem C75_own_revocations {k : Keyhive} (hr : Reach E k) (hw : AMap.WF k.world) (hD : Distinct E k) {a : Agent} {r : Rev}
    (h : r ∈ AMap.values k.revs) (hi : r.revoke.delegate.id = a.id)
    (ha : r.revoke.delegate.kind = a.kind ∨ r.revoke.delegate.isMembered = false ∧ a.isMembered = false) :
    AMap.get (k.membershipOpsFor E a) (E.opDigest (.rev r)) = some (.rev r) := by
  have hk := reach_kept hr
  refine (Keyhive.single_iff hk hw (Keyhive.apart_of_distinct hw hD)).2 ⟨rfl, .rev r, ?_, .refl⟩
  refine (Keyhive.mem_starts hk hw).2 (.inr ⟨r, h, ?_, rfl⟩)
  unfold Agent.sameAgentId
  rcases ha with ha | ⟨h1, h2⟩
  · simp [hi, ha]
  · simp [hi, h1, h2]

/-- What is selected is sent. -/
theorem C75_sent {k : Keyhive} {a : Agent} :
    (∀ h d, AMap.get (k.membershipOpsFor E a) h = some (.dlg d) → Event.dlg (E.sdlg d) ∈ k.eventsFor E a) ∧
    ∀ h r, AMap.get (k.membershipOpsFor E a) h = some (.rev r) → Event.rev (E.srev r) ∈ k.eventsFor E a := by
  have key : ∀ h o, AMap.get (k.membershipOpsFor E a) h = some o → Keyhive.toEvent E o ∈ k.eventsFor E a := fun h o ho =>
    List.mem_append_left _ (List.mem_append_left _ (List.mem_map.2 ⟨o, List.mem_map.2 ⟨(h, o), AMap.mem_of_get ho, rfl⟩, rfl⟩))
  exact ⟨fun h d hd => key h _ hd, fun h r hr => key h _ hr⟩

-- Alice is in the team; that Bob was taken out is selected for Alice.
example : Sample.tags (Sample.q1.membershipOpsFor Sample.E Sample.alice) = [100001, 2001, 200001, 1000, 1001] := by decide +kernel

/-- C75 fails: Bob was taken out of the team that is nested in group 100, and the device knows. For Carol, a member of group 100, the
revocation is not selected. Carol's device, which knows the contact cards of everyone, applies everything selected for it, nothing
stays pending, and shows Bob as an admin of group 100. -/
theorem C75_fails : ∃ (E : Env) (k c : Keyhive) (g : Group) (r : Rev), E.NoClash ∧ Reach E k ∧ Distinct E k ∧ Reach E c ∧
    AMap.get k.groups 200 = some g ∧ g.Holds (.rev r) ∧
    AMap.get (k.membershipOpsFor E ⟨.individual, 3⟩) (E.opDigest (.rev r)) = none ∧
    (∃ x, (3, x) ∈ Sample.shown k 100) ∧ (∀ x, (2, x) ∉ Sample.shown k 100) ∧
    (c.ingest E id (k.eventsFor E ⟨.individual, 3⟩)).2 = some (.ok []) ∧
    (2, Access.admin) ∈ Sample.shown (c.ingest E id (k.eventsFor E ⟨.individual, 3⟩)).1 100 := by
  have h : (match AMap.get Sample.q1.groups 200 with
      | some g => match AMap.values g.revHeads with
        | [r] => decide (AMap.get (Sample.q1.membershipOpsFor Sample.E ⟨.individual, 3⟩) (Sample.E.opDigest (.rev r)) = none)
        | _ => false
      | none => false) = true := by decide +kernel
  split at h
  · rename_i g hg
    split at h
    · rename_i r hr
      refine ⟨_, _, Sample.c1, g, r, Sample.E_noClash, Sample.reach_feed Sample.reach_k0, Sample.distinct_of (by decide +kernel),
        .start _ _, hg, ⟨.rev r, ?_, .refl⟩, of_decide_eq_true h, ⟨.edit, by decide +kernel⟩, ?_, ?_, by decide +kernel⟩
      · exact List.mem_append_right _ (List.mem_map.2 ⟨r, by rw [hr]; exact List.mem_singleton.2 rfl, rfl⟩)
      · intro x
        have : Sample.shown Sample.q1 100 = [(3, .edit), (1, .admin), (200, .admin)] := by decide +kernel
        exact this ▸ by simp
      · have h2 : (match (Sample.c1.ingest Sample.E id (Sample.q1.eventsFor Sample.E ⟨.individual, 3⟩)).2 with
            | some (.ok []) => true | _ => false) = true := by decide +kernel
        split at h2
        · rename_i e; exact e
        · cases h2
    · cases h
  · cases h

/-! ## C89: prekeys are sent -/

/-- C89 for prekey operations that can be put in order (C44): an agent is sent all prekey operations of the device's own agent, of itself,
and of every individual it shares a group or document with. Missing: operations that cannot be put in order (`C89_fails`), and two
different agents behind one id. -/
theorem C89_prekeys_partial {k : Keyhive} (hr : Reach E k) {a : Agent} (hwf : ∀ b, AMap.WF (k.keyOps b))
    (hK : ∀ x b c, Keyhive.Met k a x b → Keyhive.Met k a x c → k.keyOps b = k.keyOps c) (hn : a.isMembered = false) {i : Id}
    (hi : i = k.reg.me ∨ i = a.id ∨ ∃ gid g b links, AMap.get k.world gid = some g ∧ Sound k.world g ∧ a.id ≠ gid ∧ Within k.world g a.id ∧
      Path k.world g b links ∧ b.id = i ∧ i ≠ gid ∧ b.isMembered = false)
    {p : Prekey.Indie} (hp : AMap.get k.reg.indies i = some p) (hnd : (AMap.values p.state).Nodup) (hac : Prekey.Acyclic (AMap.values p.state))
    (hown : Prekey.OwnKeys (AMap.values p.state)) (hgr : Prekey.Grounded (AMap.values p.state)) {op : Prekey.KeyOp}
    (ho : op ∈ AMap.values p.state) : Event.prekey op ∈ k.eventsFor E a := by
  have hk := reach_kept hr
  have hops : ∀ c : Agent, c.id = i → c.isMembered = false → k.keyOps c = p.state := by
    intro c h1 h2
    unfold Keyhive.keyOps
    rw [h2, h1, hp]
    rfl
  have done : ∀ c : Agent, c.id = i → c.isMembered = false → Keyhive.Met k a i c → (AMap.get (k.prekeyOpsFor a) i).isSome = true →
      Event.prekey op ∈ k.eventsFor E a := by
    intro c h1 h2 h3 h4
    have e := hops c h1 h2
    exact prekey_sent hwf hK h3 h4 (e ▸ hnd) (e ▸ hac) (e ▸ hown) (e ▸ hgr) (e ▸ ho)
  have hin := (Keyhive.single_prekeys hwf hK).2 i
  rcases hi with rfl | rfl | ⟨gid, g, b, links, hg, hS, hne, ha, hb, rfl, hni, hbm⟩
  · exact done ⟨.active, k.reg.me⟩ rfl rfl .me (hin.2 (.inl rfl))
  · exact done a rfl hn .asked (hin.2 (.inr (.inl rfl)))
  · obtain ⟨src, hsrc⟩ := source_of hg
    have he := (hk.good hg).1
    obtain ⟨c, x, hc⟩ := (Keyhive.listed_spec hS).2 (by rw [he]; exact hni) ⟨b, links, hb, rfl⟩
    obtain ⟨c', x', hc'⟩ := (Keyhive.listed_spec hS).2 (by rw [he]; exact hne) ha
    obtain ⟨e1, c2, l2, hp2, e2⟩ := (Keyhive.listed_spec hS).1 c x hc
    refine done b rfl hbm ?_ (hin.2 (.inr (.inr ⟨(src, g), hsrc, by rw [AMap.contains, hc']; rfl, .inr ?_⟩)))
    · have : c = b := listed_agree hS hc hb
      subst this
      exact .member hsrc (AMap.mem_of_get hc)
    · exact (AMap.mem_keys_iff _ _).2 (by rw [hc]; simp)

theorem q6_keys : (∀ b, AMap.WF (Sample.q6.keyOps b)) ∧ AMap.WF Sample.q6.reg.indies ∧
    (∀ x b c, Keyhive.Met Sample.q6 Sample.alice x b → Keyhive.Met Sample.q6 Sample.alice x c → Sample.q6.keyOps b = Sample.q6.keyOps c) ∧
    Sample.alice.id ∈ AMap.keys Sample.q6.registered := by
  refine ⟨fun b => ?_, by unfold AMap.WF; decide +kernel, fun x b c hb hc => ?_, by decide +kernel⟩
  · have h1 : ∀ p ∈ Sample.q6.reg.indies, (AMap.keys p.2.state).Nodup := by decide +kernel
    have h2 : ∀ p ∈ Sample.q6.reg.membered, ∀ i, p.2 = some i → (AMap.keys i.state).Nodup := by
      have : Sample.q6.reg.membered.map (fun p => (p.1, p.2.isSome)) = [(200, false)] := by decide +kernel
      intro p hp i e
      have := this ▸ List.mem_map_of_mem (f := fun p : Id × Option Prekey.Indie => (p.1, p.2.isSome)) hp
      rw [e] at this
      simp at this
    unfold Keyhive.keyOps
    split
    · split
      · rename_i i hi; exact h2 _ (AMap.mem_of_get hi) i rfl
      · exact AMap.wf_nil
    · split
      · rename_i i hi; exact h1 _ (AMap.mem_of_get hi)
      · exact AMap.wf_nil
  · have key : ∀ b, Keyhive.Met Sample.q6 Sample.alice x b → b.id = x ∧ b.isMembered = decide (x = 200) := by
      have hs : ∀ p ∈ Sample.q6.sources, p.1.isMembered = decide (p.1.id = 200) ∧ ∀ e ∈ Sample.q6.listed p.2,
          e.2.1.id = e.1 ∧ e.2.1.isMembered = decide (e.1 = 200) := by decide +kernel
      have hr : ∀ p ∈ Sample.q6.registered, p.1 ≠ 200 := by decide +kernel
      have hme : Sample.q6.reg.me ≠ 200 := by decide +kernel
      intro b h
      cases h with
      | me => exact ⟨rfl, by simp [hme, Agent.isMembered]⟩
      | asked => exact ⟨rfl, by decide⟩
      | source h => exact ⟨rfl, (hs _ h).1⟩
      | member h h' => exact (hs _ h).2 _ h'
      | registered h => exact ⟨rfl, by simp [hr _ h, Agent.isMembered]⟩
    exact Keyhive.keyOps_same ((key b hb).1.trans (key c hc).1.symm) ((key b hb).2.trans (key c hc).2.symm)

/-- Alice, who is in the team with Bob, is sent Bob's prekey. -/
example : ∃ p op, AMap.get Sample.q6.reg.indies 2 = some p ∧ op ∈ AMap.values p.state ∧ Event.prekey op ∈ Sample.q6.eventsFor Sample.E Sample.alice := by
  have hr : Reach Sample.E Sample.q6 := Sample.reach_feed Sample.reach_k0
  have hp : AMap.get Sample.q6.reg.indies 2 = some (Sample.card 2).2 := by decide +kernel
  have hv : AMap.values (Sample.card 2).2.state = [⟨2, 2, .add 22⟩] := by decide +kernel
  obtain ⟨g, hg⟩ : ∃ g, AMap.get Sample.q6.world 200 = some g :=
    Option.isSome_iff_exists.1 (by decide +kernel)
  have hS : Sound Sample.q6.world g := Sample.neat_sound' hr (a := Sample.alice) (by decide +kernel) hg
  have hshow : ∀ i, (∃ x, (i, x) ∈ Sample.shown Sample.q6 200) → Within Sample.q6.world g i := by
    rintro i ⟨x, hx⟩
    unfold Sample.shown at hx
    rw [hg] at hx
    obtain ⟨q, hq, e⟩ := List.mem_map.1 hx
    cases e
    exact ((Keyhive.listed_spec hS).1 q.2.1 q.2.2 (AMap.get_of_mem (listed_wf _ _) hq)).2
  obtain ⟨b, links, hb, e⟩ := hshow 2 ⟨.admin, by decide +kernel⟩
  have hmem : ∀ d ∈ Sample.allDlgs Sample.q6, d.delegate.isMembered = false := by decide +kernel
  have hbm : b.isMembered = false := by
    obtain ⟨d, h1, rfl⟩ := path_around hb
    refine hmem d ?_
    rcases h1 with ⟨m, hm⟩ | ⟨i, h, m, e1, e2⟩
    · exact Sample.mem_allDlgs hg hm
    · exact Sample.mem_allDlgs e1 e2
  refine ⟨_, ⟨2, 2, .add 22⟩, hp, by rw [hv]; exact List.mem_singleton.2 rfl, C89_prekeys_partial hr q6_keys.1 q6_keys.2.2.1 rfl
    (.inr (.inr ⟨200, g, b, links, hg, hS, by decide, hshow 1 ⟨.admin, by decide +kernel⟩, hb, e, by decide, hbm⟩)) hp ?_ ?_ ?_ ?_ ?_⟩
  · rw [hv]; simp
  · rw [hv]; exact ⟨fun _ => 0, by simp⟩
  · rw [hv]; unfold Prekey.OwnKeys; simp
  · rw [hv]; rintro k ⟨o, ho, h⟩; simp_all [Prekey.KeyOp.oldKey]
  · rw [hv]; exact List.mem_singleton.2 rfl

/-- C89 fails: Dave is known from a contact card that replaces a prekey, so that the key it replaces is not known. Alice, who is in the team
with Dave, is sent nothing about Dave's prekeys, although the device has one. -/
theorem C89_fails : ∃ (E : Env) (k : Keyhive) (g : Group) (p : Prekey.Indie) (op : Prekey.KeyOp), E.NoClash ∧ Reach E k ∧
    AMap.get k.world 200 = some g ∧ Within k.world g 1 ∧ Within k.world g 4 ∧ AMap.get k.reg.indies 4 = some p ∧
    op ∈ AMap.values p.state ∧ op.newKey ∈ p.prekeys ∧ ∀ o, o.issuer = 4 → Event.prekey o ∉ k.eventsFor E ⟨.individual, 1⟩ := by
  obtain ⟨g, hg⟩ : ∃ g, AMap.get Sample.q7.world 200 = some g := Option.isSome_iff_exists.1 (by decide +kernel)
  have hS : Sound Sample.q7.world g := Sample.neat_sound' Sample.reach_q7 (a := Sample.alice) (by decide +kernel) hg
  have hshow : ∀ i, (∃ x, (i, x) ∈ Sample.shown Sample.q7 200) → Within Sample.q7.world g i := by
    rintro i ⟨x, hx⟩
    unfold Sample.shown at hx
    rw [hg] at hx
    obtain ⟨q, hq, e⟩ := List.mem_map.1 hx
    cases e
    exact ((Keyhive.listed_spec hS).1 q.2.1 q.2.2 (AMap.get_of_mem (listed_wf _ _) hq)).2
  have hno : ∀ e ∈ Sample.q7.eventsFor Sample.E ⟨.individual, 1⟩, (match e with | .prekey o => decide (o.issuer ≠ 4) | _ => true) = true := by
    decide +kernel
  refine ⟨Sample.E, Sample.q7, g, Prekey.Indie.new Prekey.Sample.H Sample.card4, Sample.card4, Sample.E_noClash, Sample.reach_q7, hg,
    hshow 1 ⟨.admin, by decide +kernel⟩, hshow 4 ⟨.read, by decide +kernel⟩, by decide +kernel, by decide +kernel, by decide +kernel, ?_⟩
  intro o ho he
  have := hno _ he
  simp [ho] at this

/-! ## C56: the bulk queries agree with the queries for one agent -/

/-- C56 for group-key operations: the bulk result for an agent has exactly the operations that the query for the agent has. -/
theorem C56_group_keys {k : Keyhive} (hr : Reach E k) (hw : AMap.WF k.world) {i did : Id} {op : SOp} :
    (did, op) ∈ k.cgkaOpsFor i ↔ ∃ l ∈ (k.cgkaOpsForAll.opsFor i).getD [], (did, op) ∈ l :=
  Keyhive.cgka_agree (reach_kept hr) hw

-- Agent 5 is in document 300, which has a key tree.
example : AMap.WF Sample.m4.world ∧ AMap.keys (Sample.m4.docsReachable 5) = [300] ∧
    (Sample.treeOf Sample.m4 300).map (fun c => (c.tree.containsId 5, c.graph.heads.length)) = some (true, 1) :=
  ⟨by unfold AMap.WF; decide +kernel, by decide +kernel, by decide +kernel⟩

/-- C56 for membership operations, when no stored revocation is about a group or document, those about the agent's id are about this
kind of agent, and there are no delegations to groups in their past. Missing: other revocations (`C56_fails`). -/
theorem C56_membership_partial {k : Keyhive} (hr : Reach E k) (hw : AMap.WF k.world) (hD : Distinct E k) {a : Agent}
    (hg : ∀ r ∈ AMap.values k.revs, AMap.get k.world r.revoke.delegate.id = none)
    (hs : ∀ r ∈ AMap.values k.revs, r.revoke.delegate.id = a.id → r.revoke.delegate.sameAgentId a = true ∧
      ∀ d, ReflTransGen Dep (.rev r) (.dlg d) → d.delegate.kind ≠ .group) {h : Nat} {o : Op} :
    AMap.get (k.membershipOpsFor E a) h = some o ↔ ∃ m ∈ ((k.membershipOpsForAll E).opsFor a.id).getD [], AMap.get m h = some o := by
  have hk := reach_kept hr
  have ha := Keyhive.apart_of_distinct hw hD
  rw [Keyhive.single_iff hk hw ha, Keyhive.bulk_iff hk hw ha]
  have hdep : ∀ {x y}, y ∈ k.edges false x → Dep x y := by
    intro x y h
    rcases Keyhive.mem_edges.1 h with h | ⟨h, _⟩
    · exact h
    · cases h
  have hup : ∀ {x y}, y ∈ k.edges false x → y ∈ k.edges true x := fun h => Keyhive.mem_edges.2 (.inl (hdep h))
  refine and_congr_right' ⟨?_, ?_⟩
  · rintro ⟨s, hst, hp⟩
    rcases (Keyhive.mem_starts hk hw).1 hst with ⟨g, hgm, hc, hh⟩ | ⟨r, hr', hsame, rfl⟩
    · exact ⟨g.id, .inl ⟨g, hgm, (AMap.mem_keys_iff _ _).2 (by intro e; rw [AMap.contains, e] at hc; cases hc), rfl⟩,
        .inl ⟨g, hgm, rfl, s, hh, hp⟩⟩
    · have hid : r.revoke.delegate.id = a.id := by
        unfold Agent.sameAgentId at hsame
        simp only [Bool.and_eq_true, decide_eq_true_eq] at hsame
        exact hsame.1
      refine ⟨a.id, .inr ⟨r, hr', hid, rfl⟩, .inr ⟨r, hr', hid, ?_⟩⟩
      have hno := (hs r hr' hid).2
      have key : ReflTransGen Dep (.rev r) o ∧ ReflTransGen (fun a b => b ∈ k.edges false a) (.rev r) o := by
        clear hst hsame
        induction hp with
        | refl => exact ⟨.refl, .refl⟩
        | tail _ he ih =>
          rcases Keyhive.mem_edges.1 he with h | ⟨_, d, _, _, e, hkd, _⟩
          · exact ⟨ih.1.tail h, ih.2.tail (Keyhive.mem_edges.2 (.inl h))⟩
          · exact absurd hkd (hno d (e ▸ ih.1))
      exact key.2
  · rintro ⟨s, hsrc, hu⟩
    have hnog : ∀ {g : Group} {r : Rev}, g ∈ k.allGroups → r ∈ AMap.values k.revs → g.id = r.revoke.delegate.id → False := by
      intro g r h1 h2 e
      have := hg r h2
      rw [← e, (Keyhive.mem_allGroups hk hw).1 h1] at this
      cases this
    rcases hsrc with ⟨g, hgm, hi, rfl⟩ | ⟨r, hr', hid, rfl⟩
    · rcases hu with ⟨g', hg', e, x, hx, hp⟩ | ⟨r, hr', hid, _⟩
      · have := (Keyhive.mem_allGroups hk hw).1 hg'
        rw [e, (Keyhive.mem_allGroups hk hw).1 hgm] at this
        cases this
        refine ⟨x, (Keyhive.mem_starts hk hw).2 (.inl ⟨g, hgm, ?_, hx⟩), hp⟩
        rw [AMap.contains]
        exact Option.isSome_iff_ne_none.2 ((AMap.mem_keys_iff _ _).1 hi)
      · exact absurd hid.symm (fun e => hnog hgm hr' e)
    · rcases hu with ⟨g', hg', e, _⟩ | ⟨r', hr'', hid', hp⟩
      · exact absurd (e.trans hid.symm) (fun e => hnog hg' hr' e)
      · refine ⟨.rev r', (Keyhive.mem_starts hk hw).2 (.inr ⟨r', hr'', (hs r' hr'' hid').1, rfl⟩), ?_⟩
        exact ReflTransGen.mono (fun a b h => hup h) _ _ hp

/-- C56 for prekey operations, for the active agent, registered individuals and members of any group or document, when the same agent
is behind the same id: the two results name the same agents, with the same operations. Missing: other agents (`C56_fails`). -/
theorem C56_prekeys_partial {k : Keyhive} {a : Agent} (hwf : ∀ b, AMap.WF (k.keyOps b)) (hwr : AMap.WF k.reg.indies)
    (hK : ∀ x b c, Keyhive.Met k a x b → Keyhive.Met k a x c → k.keyOps b = k.keyOps c)
    (hin : a.id = k.reg.me ∨ a.id ∈ AMap.keys k.reg.indies ∨ ∃ p ∈ k.sources, a.id ∈ AMap.keys (k.listed p.2)) (x : Id) :
    ((∃ s, AMap.get (k.prekeyOpsFor a) x = some s) ↔ x ∈ (AMap.get k.prekeyOpsForAll.index a.id).getD [] ∧
      ∃ s, AMap.get k.prekeyOpsForAll.ops x = some s) ∧
    ∀ s s', AMap.get (k.prekeyOpsFor a) x = some s → AMap.get k.prekeyOpsForAll.ops x = some s' → ∀ h, AMap.get s h = AMap.get s' h := by
  have hin : a.id = k.reg.me ∨ a.id ∈ AMap.keys k.registered ∨ ∃ p ∈ k.sources, a.id ∈ AMap.keys (k.listed p.2) := by
    rcases hin with h | h | h
    · exact .inl h
    · by_cases hme : a.id = k.reg.me
      · exact .inl hme
      · obtain ⟨p, h1, h2⟩ := List.mem_map.1 h
        refine .inr (.inl (List.mem_map.2 ⟨p, List.mem_filter.2 ⟨h1, ?_⟩, h2⟩))
        simp [h2, hme]
    · exact .inr (.inr h)
  obtain ⟨s1, s2⟩ := Keyhive.single_prekeys hwf hK
  obtain ⟨b1, b2⟩ := Keyhive.bulk_prekeys (a := a) hwr
  have some_iff : ∀ (m : AMap Id Prekey.State), (∃ s, AMap.get m x = some s) ↔ (AMap.get m x).isSome = true := by
    intro m
    rw [Option.isSome_iff_exists]
  have hc : ∀ g : Group, AMap.contains (k.listed g) a.id = true ↔ a.id ∈ AMap.keys (k.listed g) := by
    intro g
    rw [AMap.mem_keys_iff, AMap.contains, Option.isSome_iff_ne_none]
  refine ⟨?_, fun s s' h1 h2 h => ?_⟩
  · rw [some_iff, some_iff, s2, b2, Keyhive.index_prekeys]
    simp only [hc]
    constructor
    · rintro (rfl | rfl | ⟨p, hp, h1, h2⟩)
      · refine ⟨?_, .inl rfl⟩
        rcases hin with h | h | ⟨p, hp, h⟩
        · exact .inl ⟨h, rfl⟩
        · exact .inr (.inl ⟨h, .inl rfl⟩)
        · exact .inr (.inr ⟨p, hp, h, .inl rfl⟩)
      · rcases hin with h | h | ⟨p, hp, h⟩
        · exact ⟨.inl ⟨h, h⟩, .inl h⟩
        · exact ⟨.inr (.inl ⟨h, .inr rfl⟩), .inr (.inr h)⟩
        · exact ⟨.inr (.inr ⟨p, hp, h, .inr (.inl rfl)⟩), .inr (.inl ⟨p, hp, .inr h⟩)⟩
      · exact ⟨.inr (.inr ⟨p, hp, h1, .inr (.inr h2)⟩), .inr (.inl ⟨p, hp, h2⟩)⟩
    · rintro ⟨⟨_, rfl⟩ | ⟨_, rfl | rfl⟩ | ⟨p, hp, h, rfl | rfl | h2⟩, _⟩
      · exact .inl rfl
      · exact .inl rfl
      · exact .inr (.inl rfl)
      · exact .inl rfl
      · exact .inr (.inl rfl)
      · exact .inr (.inr ⟨p, hp, h, h2⟩)
  · obtain ⟨b, m1, e1⟩ := s1 x s h1
    obtain ⟨c, m2, e2⟩ := b1 x s' h2
    rw [e1, e2, hK x b c m1 m2]

-- Taking Bob out of the team: both queries agree for Alice and for Bob.
example : AMap.WF Sample.q5.world ∧ Distinct Sample.E Sample.q5 ∧
    (∀ r ∈ AMap.values Sample.q5.revs, AMap.get Sample.q5.world r.revoke.delegate.id = none) ∧
    (AMap.values Sample.q5.revs).map (fun r => r.revoke.delegate) = [⟨.individual, 2⟩] ∧
    Sample.tags (Sample.q5.membershipOpsFor Sample.E ⟨.individual, 2⟩) = [200001, 1000, 1001] ∧
    Sample.tags (Sample.q5.membershipOpsFor Sample.E Sample.alice) = [200001, 1000, 1001] :=
  ⟨by unfold AMap.WF; decide +kernel, Sample.distinct_of (by decide +kernel), by decide +kernel, by decide +kernel, by decide +kernel,
    by decide +kernel⟩

example : (∀ b, AMap.WF (Sample.q5.keyOps b)) ∧ AMap.WF Sample.q5.reg.indies ∧
    (∀ x b c, Keyhive.Met Sample.q5 Sample.alice x b → Keyhive.Met Sample.q5 Sample.alice x c → Sample.q5.keyOps b = Sample.q5.keyOps c) ∧
    Sample.alice.id ∈ AMap.keys Sample.q5.reg.indies := by
  refine ⟨fun b => ?_, by unfold AMap.WF; decide +kernel, fun x b c hb hc => ?_, by decide +kernel⟩
  · have h1 : ∀ p ∈ Sample.q5.reg.indies, (AMap.keys p.2.state).Nodup := by decide +kernel
    have h2 : ∀ p ∈ Sample.q5.reg.membered, ∀ i, p.2 = some i → (AMap.keys i.state).Nodup := by
      have : Sample.q5.reg.membered.map (fun p => (p.1, p.2.isSome)) = [(200, false)] := by decide +kernel
      intro p hp i e
      have := this ▸ List.mem_map_of_mem (f := fun p : Id × Option Prekey.Indie => (p.1, p.2.isSome)) hp
      rw [e] at this
      simp at this
    unfold Keyhive.keyOps
    split
    · split
      · rename_i i hi; exact h2 _ (AMap.mem_of_get hi) i rfl
      · exact AMap.wf_nil
    · split
      · rename_i i hi; exact h1 _ (AMap.mem_of_get hi)
      · exact AMap.wf_nil
  · have key : ∀ b, Keyhive.Met Sample.q5 Sample.alice x b → b.id = x ∧ b.isMembered = decide (x = 200) := by
      have hs : ∀ p ∈ Sample.q5.sources, p.1.isMembered = decide (p.1.id = 200) ∧ ∀ e ∈ Sample.q5.listed p.2,
          e.2.1.id = e.1 ∧ e.2.1.isMembered = decide (e.1 = 200) := by decide +kernel
      have hr : ∀ p ∈ Sample.q5.registered, p.1 ≠ 200 := by decide +kernel
      have hme : Sample.q5.reg.me ≠ 200 := by decide +kernel
      intro b h
      cases h with
      | me => exact ⟨rfl, by simp [hme, Agent.isMembered]⟩
      | asked => exact ⟨rfl, by decide⟩
      | source h => exact ⟨rfl, (hs _ h).1⟩
      | member h h' => exact (hs _ h).2 _ h'
      | registered h => exact ⟨rfl, by simp [hr _ h, Agent.isMembered]⟩
    exact Keyhive.keyOps_same ((key b hb).1.trans (key c hc).1.symm) ((key b hb).2.trans (key c hc).2.symm)

-- The prekeys of Alice and of agent 5 are there for Alice in both results.
example : AMap.keys (Sample.q5.prekeyOpsFor Sample.alice) = [200, 1, 5] ∧
    (AMap.get Sample.q5.prekeyOpsForAll.index 1).getD [] = [200, 1, 5] := by decide +kernel

/-- C56 fails for membership operations and for prekeys. (1) The team of Alice was taken out of a group: the bulk result shows Alice
the revocation, the query for Alice does not. (2) Carol was taken out of a group to which the team was the proof: the query for
Carol shows what is in the team, the bulk result does not. (3) The bulk result has nothing about the keys for a group that is in no other group; the
query for the group has. -/
theorem C56_fails : ∃ (E : Env) (k k' k'' : Keyhive), Reach E k ∧ Distinct E k ∧ Reach E k' ∧ Distinct E k' ∧ Reach E k'' ∧
    (∃ m ∈ ((k.membershipOpsForAll E).opsFor 1).getD [], ∃ h o, AMap.get m h = some o ∧
      AMap.get (k.membershipOpsFor E ⟨.individual, 1⟩) h = none) ∧
    (∃ h o, AMap.get (k'.membershipOpsFor E ⟨.individual, 3⟩) h = some o ∧
      ∀ m ∈ ((k'.membershipOpsForAll E).opsFor 3).getD [], AMap.get m h = none) ∧
    AMap.get k''.prekeyOpsForAll.index 200 = none ∧ (AMap.get (k''.prekeyOpsFor ⟨.group, 200⟩) k''.reg.me).isSome = true := by
  refine ⟨Sample.E, Sample.q2, Sample.q3, Sample.q5, Sample.reach_feed Sample.reach_k0, Sample.distinct_of (by decide +kernel),
    Sample.reach_feed Sample.reach_k0, Sample.distinct_of (by decide +kernel), Sample.reach_feed Sample.reach_k0, ?_, ?_,
    by decide +kernel, by decide +kernel⟩
  · have h : ((((Sample.q2.membershipOpsForAll Sample.E).opsFor 1).getD []).any (fun m => m.any (fun p =>
        decide (AMap.get m p.1 = some p.2) && decide (AMap.get (Sample.q2.membershipOpsFor Sample.E ⟨.individual, 1⟩) p.1 = none)))) = true := by
      decide +kernel
    simp only [List.any_eq_true, Bool.and_eq_true, decide_eq_true_eq] at h
    obtain ⟨m, hm, p, _, h1, h2⟩ := h
    exact ⟨m, hm, p.1, p.2, h1, h2⟩
  · have h : ((Sample.q3.membershipOpsFor Sample.E ⟨.individual, 3⟩).any (fun p =>
        decide (AMap.get (Sample.q3.membershipOpsFor Sample.E ⟨.individual, 3⟩) p.1 = some p.2) &&
        (((Sample.q3.membershipOpsForAll Sample.E).opsFor 3).getD []).all (fun m => decide (AMap.get m p.1 = none)))) = true := by
      decide +kernel
    simp only [List.any_eq_true, List.all_eq_true, Bool.and_eq_true, decide_eq_true_eq] at h
    obtain ⟨p, _, h1, h2⟩ := h
    exact ⟨p.1, p.2, h1, h2⟩

end Verif.Keyhive.QueryProps
