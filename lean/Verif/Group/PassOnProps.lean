import Verif.Group.Props

/-! # C137 — Whoever has access can pass it on

design/group_membership.md:435-437: "Any Agent MAY delegate its authority over its own capabilities to others. Restricting sub-delegation of an Agent's
capabilities MUST NOT be permitted." -/

namespace Verif.Group.PassOnProps

open Verif.Group.Sample

variable {H : Op → Nat} {N : Nested} {S : Op → Option Nat}

theorem backed_direct {W : World} {held : List Id} {c c' : Access} {gid : Id} {d : Dlg} (h : Backed (membersOf W held) c gid d)
    (hi : ∀ a ∈ d.lineage, a.delegate.isMembered = false) (hle : c' ≤ c) : Backed N c' gid d := by
  induction h with
  | root h1 h2 => exact .root h1 h2
  | link h1 h2 h3 h4 ih =>
    rename_i d p
    have hp : p ∈ d.lineage ∧ ∀ a ∈ p.lineage, a ∈ d.lineage := by
      cases d with
      | root => cases h1
      | link i s a k q af ct =>
        cases h1
        simp only [Dlg.lineage, List.mem_cons, true_or, true_and]
        exact fun a ha => .inr ha
    exact .link h1 (Nat.le_trans hle h2) (.inl (Props.backed_individual (.link h1 h2 h3 h4) h1 (hi p hp.1))) (ih fun a ha => hi a (hp.2 a ha))

theorem issue {g : Group} {who : Agent} {can : Access} {signer : Id} {content : Content} {proof : Option Dlg} (hS : ∀ o, ∃ s, S o = some s)
    (hp : g.proofFor N signer can = .ok proof)
    (hb : ∀ s, Backed N can g.id (.mk signer s who can proof (AMap.values g.revHeads) content)) :
    ∃ g' d, g.addMember H N S who can signer content = .ok (g', d) := by
  obtain ⟨s, hs⟩ := hS (.dlg (.mk signer 0 who can proof (AMap.values g.revHeads) content))
  obtain ⟨g', hg'⟩ := (receive_iff (H := H) (g := g) (d := .mk signer s who can proof (AMap.values g.revHeads) content)).2
    (by rw [(dlg_mk _ _ _ _ _ _ _).2.2.1]; exact hb s)
  refine ⟨g', .mk signer s who can proof (AMap.values g.revHeads) content, ?_⟩
  unfold Group.addMember
  simp only [hp, hs, hg', bind, Except.bind, pure, Except.pure]

/-- C137 for the key of the group: it can give anybody any access. -/
theorem C137_key {g : Group} {who : Agent} {can : Access} {content : Content} (hS : ∀ o, ∃ s, S o = some s) :
    ∃ g' d, g.addMember H N S who can g.id content = .ok (g', d) := by
  refine issue (proof := none) hS (by simp [Group.proofFor]) (fun s => .root (dlg_mk _ _ _ _ _ _ _).2.2.2 (dlg_mk _ _ _ _ _ _ _).1)

example : ∀ o, ∃ s, S99 o = some s := fun _ => ⟨99, rfl⟩

/-- C137 for members whose chains run through individuals only, when every operation was received after those it names: whatever the device knows about
other groups, adding somebody with at most the member's own access succeeds.
Missing: chains with a group in them (`C137_fails`), and those who have their access through a group (`C137_nested_fails`). -/
theorem C137_member_partial {g : Group} (hv : Vetted H g) {signer : Id} {q : Dlg} (hq : g.MemberBy signer q) {can : Access} (hcan : can ≤ q.can)
    (hi : ∀ p, g.MemberBy signer p → ∀ a ∈ p.lineage, a.delegate.isMembered = false) (hS : ∀ o, ∃ s, S o = some s) (who : Agent) (content : Content) :
    ∃ g' d, g.addMember H N S who can signer content = .ok (g', d) := by
  by_cases hid : signer = g.id
  · subst hid; exact C137_key hS
  have hg := reach_good (vetted_reach hv)
  obtain ⟨p, hp, hdel⟩ := (Props.C29_capability_iff (vetted_reach hv) signer).2 ⟨q, hq⟩
  obtain ⟨hm, hmax⟩ := getCapability_mem hp
  have hle : can ≤ p.can := Nat.le_trans hcan (hmax q hq)
  obtain ⟨W, held, hb⟩ := vetted_backed hv (hg.2.held hm)
  refine issue (proof := some p) hS ?_ fun s => ?_
  · unfold Group.proofFor
    rw [if_neg (fun h => hid h.symm)]
    have : ¬ p.can < can := Nat.not_lt_of_le hle
    simp only [hp, if_neg this]
  · exact .link (dlg_mk _ _ _ _ _ _ _).2.2.2 hle (.inl (by rw [(dlg_mk _ _ _ _ _ _ _).1, hdel])) (backed_direct hb (hi p hm) hle)

/-! ## Samples -/

/-- Group 200: 5 is admin. -/
def root2 : Dlg := .root 200 20 (ind 5) .admin .nil []
/-- And makes 7 an admin. -/
def seven : Dlg := .link 5 21 (ind 7) .admin root2 .nil []
/-- Group 200 with 7. -/
def h7 : Group := okG (deliver (membersOf [] [200]) (Group.new Sample.H root2) [.dlg seven])
/-- Group 200 after 5 has removed 7. -/
def h5 : Group := okG (deliver (membersOf [] [200]) (Group.new Sample.H root2) [.dlg seven, .rev (.via 5 22 seven seven [])])
/-- Alice adds group 200 to group 100 as an editor. -/
def k : Dlg := .link 1 11 (grp 200) .edit p0 .nil []
/-- 7 adds 8 as an editor, for group 200. -/
def eight : Dlg := .link 7 12 (ind 8) .edit k .nil []
/-- Group 100 with 200. -/
def gk : Group := okG (g0.receiveDelegation Sample.H (membersOf [] [100]) k)
/-- Group 100 with 8. -/
def g8 : Group := okG (gk.receiveDelegation Sample.H (membersOf [(200, h7)] [100]) eight)

theorem gk_vetted : Vetted Sample.H gk := by
  refine .dlg [] [100] (.new rfl rfl) ?_ (okG_eq (by decide +kernel))
  intro b hb
  have : ∀ b ∈ (Op.dlg k).after, b = .dlg p0 := by decide +kernel
  rw [this b hb]
  exact Below.head (by decide +kernel)

theorem g8_vetted : Vetted Sample.H g8 := by
  refine .dlg [(200, h7)] [100] gk_vetted ?_ (okG_eq (by decide +kernel))
  intro b hb
  have : ∀ b ∈ (Op.dlg eight).after, b = .dlg k := by decide +kernel
  rw [this b hb]
  exact Below.head (by decide +kernel)

-- Alice is a member of group 100 through individuals only.
example : Vetted Sample.H g8 ∧ g8.MemberBy 1 p0 ∧ Access.edit ≤ p0.can ∧ ∀ p, g8.MemberBy 1 p → ∀ a ∈ p.lineage, a.delegate.isMembered = false := by
  refine ⟨g8_vetted, ⟨[p0], by decide +kernel, by simp⟩, by decide, ?_⟩
  rintro p ⟨ds, h1, h2⟩
  have h3 : AMap.get g8.members 1 = some [p0] := by decide +kernel
  rw [h3] at h1
  cases h1
  simp only [List.mem_singleton] at h2
  subst h2
  intro a ha
  cases ha

/-- C137 fails for members whose chain has a group in it: 7, of group 200, adds 8 to group 100, of which group 200 is an editor, and 7 is then removed from
group 200. 8 is an editor of group 100 still, nothing was ever revoked there, and 8 can give nobody any access: the whole chain is checked again with the
members that group 200 has now. -/
theorem C137_fails : ∃ (W : World) (g : Group) (q : Dlg), Vetted Sample.H g ∧ (∀ r, ¬ g.Holds (.rev r)) ∧ NoClash Sample.H g.heads ∧
    (∀ i h, AMap.get W i = some h → Reach Sample.H h) ∧ g.MemberBy 8 q ∧ q.can = .edit ∧
    ∀ who can content, ∃ e, g.addMember Sample.H (membersOf W [g.id]) S99 who can 8 content = .error e := by
  have hcl : Closed g8.heads [.dlg p0, .dlg k, .dlg eight] := by decide +kernel
  refine ⟨[(200, h5)], g8, eight, g8_vetted, ?_, noClash_of _ hcl (by decide +kernel), ?_, ⟨[eight], by decide +kernel, by simp⟩, rfl, ?_⟩
  · intro r hr
    have := hcl.below hr
    simp at this
  · intro i h hi
    by_cases h2 : i = 200
    · subst h2
      have : h = h5 := by
        have h3 : AMap.get [((200 : Nat), h5)] 200 = some h5 := rfl
        rw [h3] at hi
        exact (Option.some.inj hi).symm
      rw [this]
      exact deliver_reach rfl (by decide +kernel)
    · exfalso
      simp [AMap.get] at hi
      exact h2 hi.1.symm
  · intro who can content
    cases hq : g8.addMember Sample.H (membersOf [(200, h5)] [g8.id]) S99 who can 8 content with
    | error e => exact ⟨e, rfl⟩
    | ok q =>
      exfalso
      obtain ⟨g', d⟩ := q
      obtain ⟨proof, s, h1, h2, h3, h4⟩ := addMember_ok hq
      have hcap : g8.getCapability 8 = some eight := by decide +kernel
      have hpf : proof = some eight := by
        unfold Group.proofFor at h1
        rw [if_neg (by decide +kernel), hcap] at h1
        dsimp only at h1
        split at h1
        · cases h1
        · cases h1; rfl
      subst hpf
      have hb := (receive_iff (H := Sample.H)).1 ⟨g', h4⟩
      rw [h3] at hb
      cases hb with
      | root h5 => cases h5
      | link h5 h6 h7 h8 =>
        cases h5
        cases h8 with
        | root h9 => cases h9
        | link h9 h10 h11 h12 =>
          cases h9
          rcases h11 with h11 | ⟨tm, b, x, e1, e2, e3⟩
          · exact absurd h11 (by decide)
          · have : (membersOf [(200, h5)] [g8.id] k.delegate).toOption.bind (fun o => o.bind (fun tm => AMap.get tm 7)) = none := by decide +kernel
            rw [e1] at this
            have e2' : AMap.get tm 7 = some (b, x) := e2
            rw [show (Except.ok (some tm) : Except Err _).toOption.bind (fun o => o.bind (fun tm => AMap.get tm 7)) = AMap.get tm 7 from rfl, e2'] at this
            cases this

/-- Group 300: 7 is admin. -/
def h3 : Group := Group.new Sample.H (.root 300 30 (ind 7) .admin .nil [])
/-- Alice adds group 200 to group 100 as a reader. -/
def k2 : Dlg := .link 1 41 (grp 200) .read p0 .nil []
/-- And group 300 as an admin. -/
def k3 : Dlg := .link 1 42 (grp 300) .admin p0 .nil []
/-- And 7 as a reader. -/
def s7 : Dlg := .link 1 43 (ind 7) .read p0 .nil []
/-- Group 100 with groups 200 and 300. -/
def g23 : Group := okG (deliver noN g0 [.dlg k2, .dlg k3])
/-- Group 100 with group 300 and 7. -/
def g37 : Group := okG (deliver noN g0 [.dlg k3, .dlg s7])
/-- The other groups. -/
def W23 : World := [(200, h7), (300, h3)]

/-- C137 fails for those who have their access through a group. 7 is an admin of groups 200 and 300, and group 300 is an admin of group 100. If group 200 is a
reader of group 100, and comes first when members are looked through, 7 can make nobody an editor of group 100. Nor can they if they are themselves a reader of
group 100 besides. -/
theorem C137_nested_fails : ∃ (W : World) (g g' : Group) (p : Dlg), Reach Sample.H g ∧ Reach Sample.H g' ∧ (∀ r, ¬ g.Holds (.rev r) ∧ ¬ g'.Holds (.rev r)) ∧
    g.MemberBy 300 p ∧ g'.MemberBy 300 p ∧ p.can = .admin ∧ p.delegate.id = 300 ∧
    ActsFor (membersOf W [g.id]) .admin p.delegate 7 ∧ ActsFor (membersOf W [g'.id]) .admin p.delegate 7 ∧
    g.addMember Sample.H (membersOf W [g.id]) S99 (ind 9) .edit 7 [] = .error (.escalation .edit .read) ∧
    g'.addMember Sample.H (membersOf W [g'.id]) S99 (ind 9) .edit 7 [] = .error (.accessEscalation .edit .read) := by
  have err : ∀ {g : Group} {e : Err}, Props.refusal (g.addMember Sample.H (membersOf W23 [g.id]) S99 (ind 9) .edit 7 []) = some e →
      g.addMember Sample.H (membersOf W23 [g.id]) S99 (ind 9) .edit 7 [] = .error e := by
    intro g e h
    cases hq : g.addMember Sample.H (membersOf W23 [g.id]) S99 (ind 9) .edit 7 [] with
    | ok q => rw [hq] at h; cases h
    | error e' => rw [hq] at h; cases h; rfl
  have acts : ∀ {g : Group}, ((membersOf W23 [g.id] k3.delegate).toOption.bind (fun o => o.bind (fun tm => AMap.get tm 7))) = some (ind 7, .admin) →
      ActsFor (membersOf W23 [g.id]) .admin k3.delegate 7 := by
    intro g h
    cases hq : membersOf W23 [g.id] k3.delegate with
    | error e => rw [hq] at h; cases h
    | ok o =>
      rw [hq] at h
      cases o with
      | none => cases h
      | some tm => exact .inr ⟨tm, ind 7, .admin, hq, h, by decide⟩
  have c1 : Closed g23.heads [.dlg p0, .dlg k2, .dlg k3] := by decide +kernel
  have c2 : Closed g37.heads [.dlg p0, .dlg k3, .dlg s7] := by decide +kernel
  refine ⟨W23, g23, g37, k3, deliver_reach rfl (by decide +kernel), deliver_reach rfl (by decide +kernel), fun r => ⟨fun hr => ?_, fun hr => ?_⟩,
    ⟨[k3], by decide +kernel, by simp⟩, ⟨[k3], by decide +kernel, by simp⟩, rfl, rfl, acts (by decide +kernel), acts (by decide +kernel),
    err (by decide +kernel), err (by decide +kernel)⟩
  · have := c1.below hr
    simp at this
  · have := c2.below hr
    simp at this

end Verif.Group.PassOnProps
