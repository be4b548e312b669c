import Verif.Group.ReplayLemmas

/-! # Helper lemmas: invariants of the replay of a membership history -/

namespace Verif.Group
namespace View

variable {gid : Id} {Held : Op → Prop}

/-- Assumptions on the operations around a replayed history: closed under dependencies, with unique signatures. -/
structure Ctx (Held : Op → Prop) : Prop where
  uniq : ∀ {a b}, Held a → Held b → a.sig = b.sig → a = b
  dep : ∀ {a b}, Held a → b ∈ a.after → Held b

theorem Ctx.dlg {Held : Op → Prop} (hx : Ctx Held) {a b : Dlg} (ha : Held (.dlg a)) (hb : Held (.dlg b)) (h : a.sig = b.sig) :
    a = b := by
  have := hx.uniq ha hb h
  injection this

theorem Ctx.rev {Held : Op → Prop} (hx : Ctx Held) {a b : Rev} (ha : Held (.rev a)) (hb : Held (.rev b)) (h : a.sig = b.sig) :
    a = b := by
  have := hx.uniq ha hb h
  injection this

theorem Ctx.proof {Held : Op → Prop} (hx : Ctx Held) {d p : Dlg} (hd : Held (.dlg d)) (hp : d.proof = some p) : Held (.dlg p) :=
  hx.dep hd (mem_after_dlg.2 (Or.inl ⟨p, hp, rfl⟩))

theorem Ctx.lineage {Held : Op → Prop} (hx : Ctx Held) : ∀ {d a : Dlg}, Held (.dlg d) → a ∈ d.lineage → Held (.dlg a)
  | .root .., a, _, h => by simp [Dlg.lineage] at h
  | .link i s g c p af ct, a, hd, h => by
    have hp : Held (.dlg p) := hx.proof hd rfl
    simp only [Dlg.lineage, List.mem_cons] at h
    rcases h with rfl | h
    · exact hp
    · exact Ctx.lineage hx hp h

/-- Invariant of the replay, after the operations `l`. -/
structure RInv (gid : Id) (Held : Op → Prop) (l : List Op) (v : View) : Prop where
  rd : ∀ {s x}, x ∈ (AMap.get v.rdeps s).getD [] ↔ ∃ d p, .dlg d ∈ l ∧ d.sig = x ∧ d.proof = some p ∧ p.sig = s
  play : ∀ {s d}, AMap.get v.inPlay s = some d → d.sig = s ∧ .dlg d ∈ l ∧ s ∉ v.revoked ∧ v.Mem d.delegate.id d
  mem : ∀ {m d}, v.Mem m d → d.delegate.id = m ∧ .dlg d ∈ l ∧ Justified gid Held d ∧
    (AMap.get v.inPlay d.sig = some d ∨ (d.sig ∈ v.revoked ∧ ∃ p, d.proof = some p ∧ p.sig ∈ v.revoked))
  ne : ∀ j ds, AMap.get v.members j = some ds → ds ≠ []
  rev : ∀ {s}, s ∈ v.revoked → (∃ r, AMap.get v.active r.sig = some r ∧ r.revoke.sig = s) ∨
    ∃ d p, .dlg d ∈ l ∧ d.sig = s ∧ d.proof = some p ∧ p.sig ∈ v.revoked
  act : ∀ {s r}, AMap.get v.active s = some r → r.sig = s ∧ .rev r ∈ l ∧ r.revoke.sig ∈ v.revoked

theorem rinv_empty : RInv gid Held [] empty := by
  refine ⟨?_, ?_, ?_, ?_, ?_, ?_⟩
  · intro s x; simp [empty]
  · intro s d h; simp [empty] at h
  · rintro m d ⟨ds, h, _⟩; simp [empty] at h
  · intro j ds h; simp [empty] at h
  · intro s h; simp [empty] at h
  · intro s r h; simp [empty] at h

theorem noteProof_same (v : View) (d : Dlg) :
    (v.noteProof d).members = v.members ∧ (v.noteProof d).active = v.active ∧ (v.noteProof d).inPlay = v.inPlay ∧
      (v.noteProof d).revoked = v.revoked := by
  unfold noteProof
  split <;> simp

theorem noteProof_rd {l : List Op} {v : View} (h : RInv gid Held l v) (d : Dlg) {s x : Nat} :
    x ∈ (AMap.get (v.noteProof d).rdeps s).getD [] ↔
      ∃ d' p, .dlg d' ∈ l ++ [.dlg d] ∧ d'.sig = x ∧ d'.proof = some p ∧ p.sig = s := by
  have hold : (∃ d' p, .dlg d' ∈ l ++ [Op.dlg d] ∧ d'.sig = x ∧ d'.proof = some p ∧ p.sig = s) ↔
      x ∈ (AMap.get v.rdeps s).getD [] ∨ (d.sig = x ∧ ∃ p, d.proof = some p ∧ p.sig = s) := by
    rw [h.rd]
    constructor
    · rintro ⟨d', p, h1, h2, h3, h4⟩
      rcases List.mem_append.1 h1 with h1 | h1
      · exact Or.inl ⟨d', p, h1, h2, h3, h4⟩
      · simp only [List.mem_cons, List.not_mem_nil, or_false, Op.dlg.injEq] at h1
        subst h1
        exact Or.inr ⟨h2, p, h3, h4⟩
    · rintro (⟨d', p, h1, h2, h3, h4⟩ | ⟨h2, p, h3, h4⟩)
      · exact ⟨d', p, List.mem_append_left _ h1, h2, h3, h4⟩
      · exact ⟨d, p, by simp, h2, h3, h4⟩
  rw [hold]
  unfold noteProof
  cases hp : d.proof with
  | none => simp
  | some p =>
    simp only
    rw [Topsort.get_addTo]
    by_cases hs : s = p.sig
    · rw [if_pos hs, Option.getD_some, mem_sinsert]
      subst hs
      constructor
      · rintro (rfl | h1)
        · exact Or.inr ⟨rfl, p, rfl, rfl⟩
        · exact Or.inl h1
      · rintro (h1 | ⟨h1, _⟩)
        · exact Or.inr h1
        · exact Or.inl h1.symm
    · rw [if_neg hs]
      constructor
      · exact Or.inl
      · rintro (h1 | ⟨_, p', h2, h3⟩)
        · exact h1
        · cases h2; exact absurd h3.symm hs

theorem noteProof_inv {l : List Op} {v : View} (h : RInv gid Held l v) (d : Dlg) :
    RInv gid Held (l ++ [.dlg d]) (v.noteProof d) := by
  obtain ⟨e1, e2, e3, e4⟩ := noteProof_same v d
  have hl : ∀ {o}, o ∈ l → o ∈ l ++ [Op.dlg d] := fun ho => List.mem_append_left _ ho
  have hm : ∀ {m x}, (v.noteProof d).Mem m x ↔ v.Mem m x := by intro m x; unfold Mem; rw [e1]
  refine ⟨noteProof_rd h d, ?_, ?_, ?_, ?_, ?_⟩
  · intro s x hs
    rw [e3] at hs
    obtain ⟨h1, h2, h3, h4⟩ := h.play hs
    exact ⟨h1, hl h2, by rw [e4]; exact h3, hm.2 h4⟩
  · intro m x hx
    obtain ⟨h1, h2, h3, h4⟩ := h.mem (hm.1 hx)
    exact ⟨h1, hl h2, h3, by rw [e3, e4]; exact h4⟩
  · rw [e1]; exact h.ne
  · intro s hs
    rw [e4] at hs
    rw [e2, e4]
    rcases h.rev hs with h1 | ⟨x, p, h1, h2⟩
    · exact Or.inl h1
    · exact Or.inr ⟨x, p, hl h1, h2⟩
  · intro s r hr
    rw [e2] at hr
    obtain ⟨h1, h2, h3⟩ := h.act hr
    exact ⟨h1, hl h2, by rw [e4]; exact h3⟩

theorem lost_false {v : View} {p : Dlg} (h : v.lost p = false) :
    p.sig ∉ v.revoked ∧ ∃ d, AMap.get v.inPlay p.sig = some d := by
  unfold lost at h
  simp only [Bool.or_eq_false_iff, decide_eq_false_iff_not, Bool.not_eq_false'] at h
  refine ⟨h.1, ?_⟩
  have := h.2
  unfold AMap.contains at this
  cases hg : AMap.get v.inPlay p.sig with
  | none => rw [hg] at this; simp at this
  | some d => exact ⟨d, rfl⟩

/-- Why a delegation with a lost proof is admitted. -/
def Other (gid : Id) (v : View) (p : Dlg) : Prop :=
  (p.issuer = gid ∧ AMap.get v.members p.issuer = none) ∨ ∃ a, v.Mem p.issuer a ∧ a ≠ p ∧ p.can ≤ a.can

theorem admits_lost {v : View} {d p : Dlg} (h : v.admits gid d = true) (hp : d.proof = some p) (hl : v.lost p = true) :
    Other gid v p := by
  unfold admits at h
  simp only [hp, hl, if_true] at h
  cases hg : AMap.get v.members p.issuer with
  | none => rw [hg] at h; exact Or.inl ⟨by simpa using h, hg⟩
  | some alts =>
    rw [hg] at h
    simp only [Bool.not_eq_true', List.all_eq_false] at h
    obtain ⟨a, h1, h2⟩ := h
    obtain ⟨h3, h4⟩ := List.mem_filter.1 h1
    refine Or.inr ⟨a, ⟨alts, hg, h3⟩, same_of_not_same h4, Access.le_of_not_lt ?_⟩
    simpa using h2

theorem admits_just {l : List Op} {v : View} (hx : Ctx Held) (hl : ∀ o ∈ l, Held o) (h : RInv gid Held l v) {d : Dlg}
    (hd : Held (.dlg d)) (ha : v.admits gid d = true) : Justified gid Held d := by
  cases hp : d.proof with
  | none =>
    unfold admits at ha
    rw [hp] at ha
    exact .root hd hp (by simpa using ha)
  | some p =>
    cases hlost : v.lost p with
    | true =>
      rcases admits_lost ha hp hlost with ⟨h1, _⟩ | ⟨a, h1, h2, h3⟩
      · exact .group hd hp h1
      · obtain ⟨i1, i2, i3, _⟩ := h.mem h1
        exact .alt hd hp i3 i1 h3
    | false =>
      obtain ⟨h1, d', h2⟩ := lost_false hlost
      obtain ⟨h3, h4, h5, h6⟩ := h.play h2
      have : d' = p := hx.dlg (hl _ h4) (hx.proof hd hp) h3
      subst this
      exact .chain hd hp (h.mem h6).2.2.1

theorem play_inv {l : List Op} {v : View} (hx : Ctx Held) (hl : ∀ o ∈ l, Held o) (h : RInv gid Held l v) {d : Dlg}
    (hd : .dlg d ∈ l) (hj : Justified gid Held d) (hr : d.sig ∉ v.revoked) : RInv gid Held l (v.play d) := by
  refine ⟨h.rd, ?_, ?_, play_nonempty h.ne d, h.rev, h.act⟩
  · intro s x hs
    have hs' : AMap.get (AMap.insert v.inPlay d.sig d) s = some x := hs
    rw [AMap.get_insert] at hs'
    split at hs'
    · rename_i he
      cases hs'
      exact ⟨he.symm, hd, by rw [he]; exact hr, play_mem.2 (Or.inr ⟨rfl, rfl⟩)⟩
    · obtain ⟨h1, h2, h3, h4⟩ := h.play hs'
      exact ⟨h1, h2, h3, play_mem.2 (Or.inl h4)⟩
  · intro m x hm
    rcases play_mem.1 hm with h1 | ⟨rfl, rfl⟩
    · obtain ⟨i1, i2, i3, i4⟩ := h.mem h1
      refine ⟨i1, i2, i3, ?_⟩
      rcases i4 with i4 | i4
      · refine Or.inl ?_
        show AMap.get (AMap.insert v.inPlay d.sig d) x.sig = some x
        rw [AMap.get_insert]
        split
        · rename_i he
          rw [hx.dlg (hl _ i2) (hl _ hd) he]
        · exact i4
      · exact Or.inr i4
    · refine ⟨rfl, hd, hj, Or.inl ?_⟩
      exact AMap.get_insert_self _ _ _

theorem delegation_inv {l : List Op} {v : View} (hx : Ctx Held) (hl : ∀ o ∈ l, Held o) (h : RInv gid Held l v) {d : Dlg}
    (hd : Held (.dlg d)) : RInv gid Held (l ++ [.dlg d]) (v.delegation gid d) := by
  have h1 := noteProof_inv h d
  have hl' : ∀ o ∈ l ++ [Op.dlg d], Held o := by
    intro o ho
    rcases List.mem_append.1 ho with ho | ho
    · exact hl o ho
    · simp at ho; rw [ho]; exact hd
  unfold delegation
  simp only
  split
  · exact h1
  · rename_i ha
    split
    · exact h1
    · rename_i hr
      exact play_inv hx hl' h1 (by simp) (admits_just hx hl' h1 hd (by simpa using ha)) hr

/-- The state after a revocation that is honoured. -/
def honoured (v : View) (r : Rev) : View :=
  let c := casc v.rdeps (v.inPlay.length + 1) ⟨v.inPlay, v.revoked, [], [r.revoke.sig]⟩
  { v with
    active := AMap.insert v.active r.sig r
    inPlay := c.inPlay
    revoked := c.revoked
    members := c.drop.foldl dropMember v.members }

theorem revocation_eq (v : View) (r : Rev) :
    v.revocation gid r = if v.honours gid r then v.honoured r else v := by
  unfold revocation honoured
  cases v.honours gid r <;> simp

theorem honoured_mem {l : List Op} {v : View} (h : RInv gid Held l v) (r : Rev) {m : Id} {d : Dlg} :
    (v.honoured r).Mem m d ↔
      v.Mem m d ∧ ¬ (∃ x, AMap.get v.inPlay r.revoke.sig = some x ∧ m = x.delegate.id ∧ d.sig = r.revoke.sig) := by
  have hc := casc_spec (rdeps := v.rdeps) (s0 := r.revoke.sig) (fun hs => (h.play hs).2.2.1) v.inPlay.length
  unfold honoured Mem
  simp only
  rw [hc.drop]
  unfold firstDrop
  cases hg : AMap.get v.inPlay r.revoke.sig with
  | none => simp
  | some x =>
    simp only [List.foldl_cons, List.foldl_nil]
    rw [dropMember_mem]
    constructor
    · rintro ⟨h1, h2⟩
      refine ⟨h1, ?_⟩
      rintro ⟨y, h3, h4, h5⟩
      cases h3
      exact h2 h4 h5
    · rintro ⟨h1, h2⟩
      exact ⟨h1, fun h3 h4 => h2 ⟨x, rfl, h3, h4⟩⟩

theorem honoured_ne {l : List Op} {v : View} (h : RInv gid Held l v) (r : Rev) :
    ∀ j ds, AMap.get (v.honoured r).members j = some ds → ds ≠ [] := by
  have hc := casc_spec (rdeps := v.rdeps) (s0 := r.revoke.sig) (fun hs => (h.play hs).2.2.1) v.inPlay.length
  unfold honoured
  simp only
  rw [hc.drop]
  unfold firstDrop
  cases hg : AMap.get v.inPlay r.revoke.sig with
  | none => simpa using h.ne
  | some x =>
    simp only [List.foldl_cons, List.foldl_nil]
    exact dropMember_nonempty h.ne _

theorem honoured_inv {l : List Op} {v : View} (hx : Ctx Held) (hl : ∀ o ∈ l, Held o) (h : RInv gid Held l v) {r : Rev}
    (hr : Held (.rev r)) : RInv gid Held (l ++ [.rev r]) (v.honoured r) := by
  have hc := casc_spec (rdeps := v.rdeps) (s0 := r.revoke.sig) (fun hs => (h.play hs).2.2.1) v.inPlay.length
  have hin : ∀ {o}, o ∈ l → o ∈ l ++ [Op.rev r] := fun ho => List.mem_append_left _ ho
  have hdl : ∀ {d : Dlg}, Op.dlg d ∈ l ++ [Op.rev r] ↔ Op.dlg d ∈ l := by intro d; simp
  have hkey : ∀ {m d}, v.Mem m d → ∀ {x}, AMap.get v.inPlay r.revoke.sig = some x → d.sig = r.revoke.sig → d = x := by
    intro m d hm x hg hs
    obtain ⟨_, h1, _⟩ := h.mem hm
    obtain ⟨h2, h3, _⟩ := h.play hg
    exact hx.dlg (hl _ h1) (hl _ h3) (by rw [hs, h2])
  have hac : ∀ {r' : Rev}, AMap.get v.active r'.sig = some r' → AMap.get (v.honoured r).active r'.sig = some r' := by
    intro r' h1
    show AMap.get (AMap.insert v.active r.sig r) r'.sig = some r'
    rw [AMap.get_insert]
    split
    · rename_i he
      rw [hx.rev (hl _ (h.act h1).2.1) hr he]
    · exact h1
  refine ⟨?_, ?_, ?_, honoured_ne h r, ?_, ?_⟩
  · intro s x
    show x ∈ (AMap.get v.rdeps s).getD [] ↔ _
    rw [h.rd]
    simp only [hdl]
  · intro s d hs
    have hs' : AMap.get v.inPlay s = some d := hc.sub hs
    obtain ⟨h1, h2, h3, h4⟩ := h.play hs'
    refine ⟨h1, hin h2, hc.excl hs, (honoured_mem h r).2 ⟨h4, ?_⟩⟩
    rintro ⟨x, h5, h6, h7⟩
    apply hc.excl hs
    rw [← h1, h7]
    exact hc.first
  · intro m d hm
    obtain ⟨h1, h2⟩ := (honoured_mem h r).1 hm
    obtain ⟨i1, i2, i3, i4⟩ := h.mem h1
    refine ⟨i1, hin i2, i3, ?_⟩
    rcases i4 with i4 | ⟨i4, p, i5, i6⟩
    · by_cases hrev : d.sig ∈ (casc v.rdeps (v.inPlay.length + 1) ⟨v.inPlay, v.revoked, [], [r.revoke.sig]⟩).revoked
      · refine Or.inr ⟨hrev, ?_⟩
        rcases hc.why hrev with h3 | h3 | ⟨t, h3, h4⟩
        · exact absurd h3 (h.play i4).2.2.1
        · exfalso
          apply h2
          refine ⟨d, by rw [← h3]; exact i4, i1.symm, h3⟩
        · obtain ⟨d', p, j1, j2, j3, j4⟩ := h.rd.1 h4
          have : d' = d := hx.dlg (hl _ j1) (hl _ i2) j2
          subst this
          exact ⟨p, j3, by rw [j4]; exact h3⟩
      · exact Or.inl (hc.keep i4 hrev)
    · exact Or.inr ⟨hc.mono i4, p, i5, hc.mono i6⟩
  · intro s hs
    rcases hc.why hs with h1 | h1 | ⟨t, h1, h2⟩
    · rcases h.rev h1 with ⟨r', h2, h3⟩ | ⟨d, p, h2, h3, h4, h5⟩
      · exact Or.inl ⟨r', hac h2, h3⟩
      · exact Or.inr ⟨d, p, hin h2, h3, h4, hc.mono h5⟩
    · refine Or.inl ⟨r, ?_, h1.symm⟩
      exact AMap.get_insert_self _ _ _
    · obtain ⟨d', p, j1, j2, j3, j4⟩ := h.rd.1 h2
      exact Or.inr ⟨d', p, hin j1, j2, j3, by rw [j4]; exact h1⟩
  · intro s r' hs
    have hs' : AMap.get (AMap.insert v.active r.sig r) s = some r' := hs
    rw [AMap.get_insert] at hs'
    split at hs'
    · rename_i he
      cases hs'
      exact ⟨he.symm, by simp, hc.first⟩
    · obtain ⟨h1, h2, h3⟩ := h.act hs'
      exact ⟨h1, hin h2, hc.mono h3⟩

theorem skip_inv {l : List Op} {v : View} (h : RInv gid Held l v) (r : Rev) : RInv gid Held (l ++ [.rev r]) v := by
  have hin : ∀ {o}, o ∈ l → o ∈ l ++ [Op.rev r] := fun ho => List.mem_append_left _ ho
  have hdl : ∀ {d : Dlg}, Op.dlg d ∈ l ++ [Op.rev r] ↔ Op.dlg d ∈ l := by intro d; simp
  refine ⟨?_, ?_, ?_, h.ne, ?_, ?_⟩
  · intro s x
    rw [h.rd]
    simp only [hdl]
  · intro s d hs
    obtain ⟨h1, h2, h3, h4⟩ := h.play hs
    exact ⟨h1, hin h2, h3, h4⟩
  · intro m d hm
    obtain ⟨h1, h2, h3, h4⟩ := h.mem hm
    exact ⟨h1, hin h2, h3, h4⟩
  · intro s hs
    rcases h.rev hs with h1 | ⟨d, p, h1, h2⟩
    · exact Or.inl h1
    · exact Or.inr ⟨d, p, hin h1, h2⟩
  · intro s r' hs
    obtain ⟨h1, h2, h3⟩ := h.act hs
    exact ⟨h1, hin h2, h3⟩

theorem apply_inv {l : List Op} {v : View} (hx : Ctx Held) (hl : ∀ o ∈ l, Held o) (h : RInv gid Held l v) {o : Op}
    (ho : Held o) : RInv gid Held (l ++ [o]) (v.apply gid o) := by
  cases o with
  | dlg d => exact delegation_inv hx hl h ho
  | rev r =>
    show RInv gid Held _ (v.revocation gid r)
    rw [revocation_eq]
    split
    · exact honoured_inv hx hl h ho
    · exact skip_inv h r

theorem replay_append (gid : Id) (l : List Op) (o : Op) : replay gid (l ++ [o]) = (replay gid l).apply gid o := by
  simp [replay, List.foldl_append]

theorem replay_inv (hx : Ctx Held) (l : List Op) (hl : ∀ o ∈ l, Held o) : RInv gid Held l (replay gid l) := by
  induction l using List.reverseRecOn with
  | nil => exact rinv_empty
  | append_singleton l o ih =>
    rw [replay_append]
    exact apply_inv hx (fun x hxl => hl x (List.mem_append_left _ hxl))
      (ih (fun x hxl => hl x (List.mem_append_left _ hxl))) (hl o (by simp))

end View
end Verif.Group
