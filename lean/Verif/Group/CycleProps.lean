import Verif.Group.Props

/-! # C135 — Groups that are members of each other are one group

design/group_membership.md:471-508: groups may delegate to each other; "while they have different members, they can be considered a
single group because they've co-delegated". -/

namespace Verif.Group.CycleProps

open Verif.Group.Sample

/-- Two groups of the world, each of which is reached from the other by following members. -/
structure Mutual (W : World) (g h : Group) (ga ha : Agent) : Prop where
  known : AMap.get W g.id = some g ∧ AMap.get W h.id = some h
  ids : ga.id = g.id ∧ ha.id = h.id
  groups : ga.isMembered = true ∧ ha.isMembered = true
  there : ∃ links, Path W g ha links
  back : ∃ links, Path W h ga links

theorem path_through {W : World} {g h : Group} {ha : Agent} (hg : AMap.get W g.id = some g) (hh : AMap.get W h.id = some h) (hid : ha.id = h.id)
    (hm : ha.isMembered = true) (hp : ∃ links, Path W g ha links) {a : Agent} {links : List Access} (hpa : Path W h a links) :
    ∃ links, Path W g a links := by
  obtain ⟨l0, hp⟩ := hp
  induction hpa with
  | direct hd =>
    by_cases he : ha.id = g.id
    · rw [hid.symm.trans he, hg] at hh
      cases hh
      exact ⟨_, .direct hd⟩
    · exact ⟨_, .nested hp he hm (by rw [hid]; exact hh) hd⟩
  | nested hb hne hbm hbg hd ih =>
    rename_i b _ hb' _ _
    obtain ⟨l1, h1⟩ := ih
    by_cases he : b.id = g.id
    · rw [he, hg] at hbg
      cases hbg
      exact ⟨_, .direct hd⟩
    · exact ⟨_, .nested h1 he hbm hbg hd⟩

/-- C135, one way: whoever is a member of a group that is reached from the group is a member of the group. -/
theorem C135_includes {W : World} {g h : Group} {ha : Agent} (hg : AMap.get W g.id = some g) (hh : AMap.get W h.id = some h)
    (hSg : Sound W g) (hSh : Sound W h) (hid : ha.id = h.id) (hm : ha.isMembered = true) (hp : ∃ links, Path W g ha links)
    {cg ch : AMap Id (Agent × Access)} (eg : transitiveMembers W [g.id] g = .ok cg) (eh : transitiveMembers W [h.id] h = .ok ch)
    {i : Id} (hi : i ≠ g.id) (hc : ∃ a x, AMap.get ch i = some (a, x)) : ∃ a x, AMap.get cg i = some (a, x) := by
  obtain ⟨a, x, hc⟩ := hc
  obtain ⟨e, links, hpa, -⟩ := (transitive_spec hSh eh).1 i a x hc
  obtain ⟨l, hl⟩ := path_through hg hh hid hm hp hpa
  subst e
  cases hq : AMap.get cg a.id with
  | none => exact absurd hq ((transitive_spec hSg eg).2 a l hl hi)
  | some p => exact ⟨p.1, p.2, rfl⟩

/-- Group 100 has group 200 as admin and 3 as reader. -/
def gA : Group := okG (deliver noN (Group.new H (.root 100 10 (grp 200) .admin .nil [])) [.dlg (.root 100 11 (ind 3) .read .nil [])])
/-- Group 200 has group 100 and 3 as admins. -/
def gB : Group := okG (deliver noN (Group.new H (.root 200 20 (grp 100) .admin .nil [])) [.dlg (.root 200 21 (ind 3) .admin .nil [])])
/-- Both. -/
def W : World := [(100, gA), (200, gB)]

theorem sound {g : Group} (hg : g = gA ∨ g = gB) : Sound W g := by
  have ta : gA.Tidy := (deliver_reach rfl (by decide +kernel)).tidy
  have tb : gB.Tidy := (deliver_reach rfl (by decide +kernel)).tidy
  refine sound_of [.root 100 10 (grp 200) .admin .nil [], .root 100 11 (ind 3) .read .nil [], .root 200 20 (grp 100) .admin .nil [],
    .root 200 21 (ind 3) .admin .nil []] (by unfold AMap.WF; decide +kernel) ?_ ?_ ?_ (by decide +kernel) (by decide +kernel) (by decide +kernel)
  · rcases hg with rfl | rfl
    · exact ta
    · exact tb
  · intro p hp
    simp only [W, List.mem_cons, List.not_mem_nil, or_false] at hp
    rcases hp with rfl | rfl
    · exact ta
    · exact tb
  · rcases hg with rfl | rfl <;> decide +kernel

theorem a_has : gA.MemberBy 200 (.root 100 10 (grp 200) .admin .nil []) := ⟨[.root 100 10 (grp 200) .admin .nil []], by decide +kernel, by simp⟩
theorem b_has : gB.MemberBy 100 (.root 200 20 (grp 100) .admin .nil []) := ⟨[.root 200 20 (grp 100) .admin .nil []], by decide +kernel, by simp⟩

theorem both : Mutual W gA gB (grp 100) (grp 200) :=
  ⟨⟨by decide +kernel, by decide +kernel⟩, ⟨by decide +kernel, by decide +kernel⟩, ⟨rfl, rfl⟩,
    ⟨_, .direct (m := 200) (d := .root 100 10 (grp 200) .admin .nil []) a_has⟩,
    ⟨_, .direct (m := 100) (d := .root 200 20 (grp 100) .admin .nil []) b_has⟩⟩

/-- C135, members: groups that are members of each other, directly or through other groups, list the same members, apart from the two groups
themselves. The access is not compared: it differs (`C135_fails`). -/
theorem C135_same_members_partial {W : World} {g h : Group} {ga ha : Agent} (hm : Mutual W g h ga ha) (hSg : Sound W g) (hSh : Sound W h) :
    ∃ cg ch, transitiveMembers W [g.id] g = .ok cg ∧ transitiveMembers W [h.id] h = .ok ch ∧
      ∀ i, i ≠ g.id → i ≠ h.id → ((∃ a x, AMap.get cg i = some (a, x)) ↔ ∃ a x, AMap.get ch i = some (a, x)) := by
  obtain ⟨cg, eg⟩ := transitive_ok W g
  obtain ⟨ch, eh⟩ := transitive_ok W h
  refine ⟨cg, ch, eg, eh, fun i h1 h2 => ⟨?_, ?_⟩⟩
  · exact C135_includes hm.known.2 hm.known.1 hSh hSg hm.ids.1 hm.groups.1 hm.back eh eg h2
  · exact C135_includes hm.known.1 hm.known.2 hSg hSh hm.ids.2 hm.groups.2 hm.there eg eh h1

example : Mutual W gA gB (grp 100) (grp 200) ∧ Sound W gA ∧ Sound W gB := ⟨both, sound (.inl rfl), sound (.inr rfl)⟩

theorem walk_trans {W : World} {a b c : Agent} (h1 : Walk W a b) (h2 : Walk W b c) : Walk W a c := by
  induction h2 with
  | refl => exact h1
  | step _ hm hg hd ih => exact .step ih hm hg hd

theorem walk_of_path {W : World} {g : Group} {ga : Agent} (hg : AMap.get W g.id = some g) (hid : ga.id = g.id) (hm : ga.isMembered = true)
    {a : Agent} {links : List Access} (hp : Path W g a links) : Walk W ga a := by
  induction hp with
  | direct hd => exact .step .refl hm (by rw [hid]; exact hg) hd
  | nested _ _ hbm hbg hd ih => exact .step ih hbm hbg hd

/-- C135, individuals: the individuals behind the two groups, who get the keys when one of the groups is given access to a document, are the same. -/
theorem C135_same_individuals {W : World} {g h : Group} {ga ha : Agent} (hm : Mutual W g h ga ha) (hT : ∀ i h, AMap.get W i = some h → h.Tidy)
    (hK : ∀ b c, Walk W ga b → Walk W ga c → b.id = c.id → b = c) :
    ∃ og oh, ga.individualIds W [] = .ok og ∧ ha.individualIds W [] = .ok oh ∧ ∀ i, i ∈ og ↔ i ∈ oh := by
  have w1 : Walk W ga ha := by
    obtain ⟨l, hl⟩ := hm.there
    exact walk_of_path hm.known.1 hm.ids.1 hm.groups.1 hl
  have w2 : Walk W ha ga := by
    obtain ⟨l, hl⟩ := hm.back
    exact walk_of_path hm.known.2 hm.ids.2 hm.groups.2 hl
  obtain ⟨og, eg, h1⟩ := Props.C33_individuals_exact hT hK
  obtain ⟨oh, eh, h2⟩ := Props.C33_individuals_exact (a := ha) hT
    (fun b c hb hc => hK b c (walk_trans w1 hb) (walk_trans w1 hc))
  refine ⟨og, oh, eg, eh, fun i => ?_⟩
  rw [h1, h2]
  exact ⟨fun ⟨b, hb, e⟩ => ⟨b, walk_trans w2 hb, e⟩, fun ⟨b, hb, e⟩ => ⟨b, walk_trans w1 hb, e⟩⟩

example : (grp 100).individualIds W [] = .ok [3] ∧ (grp 200).individualIds W [] = .ok [3] := by decide +kernel
example : (∀ i h, AMap.get W i = some h → h.Tidy) ∧ ∀ b c, Walk W (grp 100) b → Walk W (grp 100) c → b.id = c.id → b = c := by
  have hS := sound (.inl rfl)
  refine ⟨hS.world, ?_⟩
  have key : ∀ b, Walk W (grp 100) b → b = grp 100 ∨ b = grp 200 ∨ b = ind 3 := by
    intro b hb
    cases hb with
    | refl => exact .inl rfl
    | step _ _ hg hd =>
      have h1 := AMap.mem_of_get hg
      have h2 := mem_memberDlgs hd
      have hall : ∀ p ∈ W, ∀ d ∈ memberDlgs p.2, d.delegate = grp 100 ∨ d.delegate = grp 200 ∨ d.delegate = ind 3 := by decide +kernel
      exact hall _ h1 _ h2
  intro b c hb hc he
  rcases key b hb with rfl | rfl | rfl <;> rcases key c hc with rfl | rfl | rfl <;> first | rfl | exact absurd he (by decide)

/-- C135 fails for access: groups 100 and 200 are admins of each other, and 3 is a reader of 100 and an admin of 200. Group 100 then lists 3 as an
admin, and group 200, of which 3 is an admin, lists 3 as a reader. -/
theorem C135_fails : ∃ (W : World) (g h : Group) (ga ha : Agent) (cg ch : AMap Id (Agent × Access)) (dg dh : Dlg),
    Reach H g ∧ Reach H h ∧ Mutual W g h ga ha ∧ Sound W g ∧ Sound W h ∧
    g.MemberBy 3 dg ∧ dg.can = .read ∧ h.MemberBy 3 dh ∧ dh.can = .admin ∧ (∃ p, g.MemberBy h.id p ∧ p.can = .admin) ∧
    (∃ p, h.MemberBy g.id p ∧ p.can = .admin) ∧ transitiveMembers W [g.id] g = .ok cg ∧ transitiveMembers W [h.id] h = .ok ch ∧
    AMap.get cg 3 = some (ind 3, .admin) ∧ AMap.get ch 3 = some (ind 3, .read) := by
  obtain ⟨cg, eg⟩ := transitive_ok W gA
  obtain ⟨ch, eh⟩ := transitive_ok W gB
  have h1 : (transitiveMembers W [gA.id] gA).toOption.bind (fun c => AMap.get c 3) = some (ind 3, .admin) := by decide +kernel
  have h2 : (transitiveMembers W [gB.id] gB).toOption.bind (fun c => AMap.get c 3) = some (ind 3, .read) := by decide +kernel
  rw [eg] at h1
  rw [eh] at h2
  exact ⟨W, gA, gB, grp 100, grp 200, cg, ch, .root 100 11 (ind 3) .read .nil [], .root 200 21 (ind 3) .admin .nil [],
    deliver_reach rfl (by decide +kernel), deliver_reach rfl (by decide +kernel), both, sound (.inl rfl), sound (.inr rfl),
    ⟨[.root 100 11 (ind 3) .read .nil []], by decide +kernel, by simp⟩, rfl, ⟨[.root 200 21 (ind 3) .admin .nil []], by decide +kernel, by simp⟩, rfl,
    ⟨_, a_has, rfl⟩, ⟨_, b_has, rfl⟩, eg, eh, h1, h2⟩

end Verif.Group.CycleProps
