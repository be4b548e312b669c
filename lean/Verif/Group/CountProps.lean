import Verif.Group.Props

/-!
# Which revocations count

A group accepts revocations as they arrive (C26, C45), and when it works out its members it decides which of them count. C119
says which: a revocation counts when the delegation it rests on stands. It also counts when that delegation has been revoked,
unless whoever gave it has lost that access too; so being revoked does not take away the power to revoke.
-/

namespace Verif.Group.CountProps

open Verif.Group Verif.Group.Sample Verif.Group.View

variable {H : Op → Nat}

/-! ## Helpers -/

theorem le_lt : ∀ {a b : Access}, a ≤ b → b < a → False := by
  intro a b
  cases a <;> cases b <;> decide

theorem prefix_first {l1 l2 : List Op} (h : ProofFirst (l1 ++ l2)) : ProofFirst l1 := by
  intro a d b he p hp
  exact h a d (b ++ l2) (by rw [he]; simp) p hp

/-- A revocation that counts goes on counting. -/
theorem stays_active {gid : Id} {Held : Op → Prop} (hx : Ctx Held) (l1 l2 : List Op) (hl : ∀ o ∈ l1 ++ l2, Held o) {r : Rev}
    (h : AMap.get (replay gid l1).active r.sig = some r) : AMap.get (replay gid (l1 ++ l2)).active r.sig = some r := by
  induction l2 using List.reverseRecOn with
  | nil => simpa using h
  | append_singleton l2 o ih =>
    rw [← List.append_assoc] at hl ⊢
    have hl' : ∀ o ∈ l1 ++ l2, Held o := fun x hxl => hl x (List.mem_append_left _ hxl)
    have h' := ih hl'
    rw [replay_append]
    cases o with
    | dlg d =>
      show AMap.get ((replay gid (l1 ++ l2)).delegation gid d).active r.sig = some r
      obtain ⟨_, e2, _, _⟩ := noteProof_same (replay gid (l1 ++ l2)) d
      unfold delegation
      simp only
      split
      · rw [e2]; exact h'
      · split
        · rw [e2]; exact h'
        · show AMap.get ((replay gid (l1 ++ l2)).noteProof d).active r.sig = some r
          rw [e2]; exact h'
    | rev r' =>
      show AMap.get ((replay gid (l1 ++ l2)).revocation gid r').active r.sig = some r
      rw [revocation_eq]
      split
      · show AMap.get (AMap.insert (replay gid (l1 ++ l2)).active r'.sig r') r.sig = some r
        rw [AMap.get_insert]
        split
        · rename_i he
          have hin := ((replay_inv (gid := gid) hx _ hl').act h').2.1
          rw [hx.rev (hl' _ hin) (hl _ (by simp)) he]
        · exact h'
      · exact h'

/-- A revocation counts if it is honoured when its turn comes. -/
theorem counts_of {g : Group} (h : Reach H g) (hc : NoClash H g.heads) (hs : NoClash Op.sig g.heads) {r : Rev} {l1 l2 : List Op}
    (he : g.history H = l1 ++ .rev r :: l2) (hh : (replay g.id l1).honours g.id r = true) : g.InEffect r := by
  rw [effect_view (reach_good h).2, he]
  have hl : ∀ o ∈ (l1 ++ [Op.rev r]) ++ l2, g.Holds o := fun o ho => history_below hc (by rw [he]; simpa using ho)
  have e : l1 ++ .rev r :: l2 = (l1 ++ [.rev r]) ++ l2 := by simp
  rw [e]
  refine stays_active (ctx_of hs) _ l2 hl ?_
  rw [replay_append]
  show AMap.get ((replay g.id l1).revocation g.id r).active r.sig = some r
  rw [revocation_eq, if_pos hh]
  exact AMap.get_insert_self _ _ _

/-- A revocation that counts was honoured when its turn came. -/
theorem active_honoured {gid : Id} (l : List Op) {r : Rev} (h : AMap.get (replay gid l).active r.sig = some r) :
    ∃ l1 l2, l = l1 ++ .rev r :: l2 ∧ (replay gid l1).honours gid r = true := by
  induction l using List.reverseRecOn with
  | nil => simp [replay, empty] at h
  | append_singleton l o ih =>
    have grow : AMap.get (replay gid l).active r.sig = some r →
        ∃ l1 l2, l ++ [o] = l1 ++ .rev r :: l2 ∧ (replay gid l1).honours gid r = true := by
      intro h'
      obtain ⟨l1, l2, h1, h2⟩ := ih h'
      exact ⟨l1, l2 ++ [o], by rw [h1]; simp, h2⟩
    rw [replay_append] at h
    cases o with
    | dlg d =>
      refine grow ?_
      replace h : AMap.get ((replay gid l).delegation gid d).active r.sig = some r := h
      obtain ⟨_, e2, _, _⟩ := noteProof_same (replay gid l) d
      unfold delegation at h
      simp only at h
      split at h
      · rwa [e2] at h
      · split at h
        · rwa [e2] at h
        · replace h : AMap.get ((replay gid l).noteProof d).active r.sig = some r := h
          rwa [e2] at h
    | rev r' =>
      replace h : AMap.get ((replay gid l).revocation gid r').active r.sig = some r := h
      rw [revocation_eq] at h
      split at h
      · rename_i hh
        replace h : AMap.get (AMap.insert (replay gid l).active r'.sig r') r.sig = some r := h
        rw [AMap.get_insert] at h
        split at h
        · cases h
          exact ⟨l, [], by simp, hh⟩
        · exact grow h
      · exact grow h

/-- Before its turn, a delegation that nothing else revokes is in play. -/
theorem stands {g : Group} (hc : NoClash H g.heads) (hs : NoClash Op.sig g.heads) (ha : Acyclic g.heads) {r : Rev} {l1 l2 : List Op}
    (he : g.history H = l1 ++ .rev r :: l2) {p : Dlg} (hp : .dlg p ∈ l1) (hsub : p.subject = g.id)
    (hcl : ∀ r', g.Holds (.rev r') → r' ≠ r → ∀ a ∈ p :: p.lineage, r'.revoke.sig ≠ a.sig) :
    AMap.get (replay g.id l1).inPlay p.sig = some p := by
  have hl : ∀ o ∈ l1, g.Holds o := fun o ho => history_below hc (by rw [he]; simp [ho])
  have hR := replay_inv (gid := g.id) (ctx_of hs) l1 hl
  have hnd := history_nodup' (g := g) hc
  rw [he] at hnd
  refine clean_inPlay (ctx_of hs) l1 hl (prefix_first (by rw [← he]; exact proof_first hc ha)) hp hsub ?_
  intro a ham hrev
  have hHa : g.Holds (.dlg a) := by
    rcases List.mem_cons.1 ham with rfl | ha'
    · exact hl _ hp
    · exact (ctx_of hs).lineage (hl _ hp) ha'
  obtain ⟨b, h1, r', h2, h3⟩ := revoked_above (ctx_of hs) hl hR hHa hrev
  have hr' := (hR.act h2).2.1
  refine hcl r' (hl _ hr') ?_ b ?_ h3
  · rintro rfl
    exact (List.nodup_append.1 hnd).2.2 _ hr' _ (by simp) rfl
  · rcases List.mem_cons.1 ham with rfl | ha'
    · exact h1
    · refine List.mem_cons_of_mem _ ?_
      rcases List.mem_cons.1 h1 with rfl | h1
      · exact ha'
      · exact Dlg.lineage_trans ha' h1

/-! ## C119 -/

/-- Nothing the group holds, other than `r`, revokes the delegation or one above it. -/
def Stands (g : Group) (r : Rev) (p : Dlg) : Prop :=
  p.subject = g.id ∧ ∀ r', g.Holds (.rev r') → r' ≠ r → ∀ a ∈ p :: p.lineage, r'.revoke.sig ≠ a.sig

/-- C119: a revocation that the group key issued, or whose proof stands, counts. Missing: that no other revocation does (see
`C119_fails`). -/
theorem C119_valid_counts_partial {g : Group} (h : Reach H g) (hc : NoClash H g.heads) (hs : NoClash Op.sig g.heads)
    (ha : Acyclic g.heads) {r : Rev} (hr : g.Holds (.rev r))
    (hv : (r.proof = none ∧ r.issuer = g.id) ∨ ∃ p, r.proof = some p ∧ Stands g r p) : g.InEffect r := by
  obtain ⟨l1, l2, he⟩ := List.append_of_mem ((history_complete hc ha).2 hr)
  refine counts_of h hc hs he ?_
  unfold honours
  rcases hv with ⟨h1, h2⟩ | ⟨p, h1, h2, h3⟩
  · simp [h1, h2]
  · have hp : .dlg p ∈ l1 := history_causal hc ha he (mem_after_rev.2 (Or.inr ⟨p, h1, rfl⟩))
    have hin := stands hc hs ha he hp h2 h3
    have hl : ∀ o ∈ l1, g.Holds o := fun o ho => history_below hc (by rw [he]; simp [ho])
    have hR := replay_inv (gid := g.id) (ctx_of hs) l1 hl
    have hlost : (replay g.id l1).lost p = false := by
      unfold lost AMap.contains
      rw [hin]
      simp [(hR.play hin).2.2.1]
    simp [h1, hlost]

/-- C119: a revocation counts as long as nobody was given access under the name of the giver of its proof; so every revocation
by someone the group key itself added counts, also when they have been revoked. -/
theorem C119_root_counts {g : Group} (h : Reach H g) (hc : NoClash H g.heads) (hs : NoClash Op.sig g.heads)
    (ha : Acyclic g.heads) {r : Rev} (hr : g.Holds (.rev r)) {p : Dlg} (hp : r.proof = some p)
    (hno : ∀ d, g.Holds (.dlg d) → d.delegate.id ≠ p.issuer) : g.InEffect r := by
  obtain ⟨l1, l2, he⟩ := List.append_of_mem ((history_complete hc ha).2 hr)
  refine counts_of h hc hs he ?_
  have hl : ∀ o ∈ l1, g.Holds o := fun o ho => history_below hc (by rw [he]; simp [ho])
  have hR := replay_inv (gid := g.id) (ctx_of hs) l1 hl
  have hnone : AMap.get (replay g.id l1).members p.issuer = none := by
    cases hg : AMap.get (replay g.id l1).members p.issuer with
    | none => rfl
    | some ds =>
      exfalso
      obtain ⟨d, hd⟩ := List.exists_mem_of_ne_nil ds (hR.ne _ _ hg)
      obtain ⟨h1, h2, _⟩ := hR.mem ⟨ds, hg, hd⟩
      exact hno d (hl _ h2) h1
  unfold honours
  simp [hp, hnone]

/-- C119: a revocation whose proof was given by someone still holding that access counts, whether or not the proof itself has
been revoked. -/
theorem C119_given_counts {g : Group} (h : Reach H g) (hc : NoClash H g.heads) (hs : NoClash Op.sig g.heads)
    (ha : Acyclic g.heads) {r : Rev} (hr : g.Holds (.rev r)) {p q : Dlg} (hp : r.proof = some p) (hq : p.proof = some q)
    (hby : q.delegate.id = p.issuer) (hcan : p.can ≤ q.can) (hst : Stands g r q) : g.InEffect r := by
  obtain ⟨l1, l2, he⟩ := List.append_of_mem ((history_complete hc ha).2 hr)
  refine counts_of h hc hs he ?_
  have hl : ∀ o ∈ l1, g.Holds o := fun o ho => history_below hc (by rw [he]; simp [ho])
  have hR := replay_inv (gid := g.id) (ctx_of hs) l1 hl
  have hpl : .dlg p ∈ l1 := history_causal hc ha he (mem_after_rev.2 (Or.inr ⟨p, hp, rfl⟩))
  obtain ⟨s, t, hst'⟩ := List.append_of_mem hpl
  have hql : .dlg q ∈ l1 := by
    have := history_causal hc ha (show g.history H = s ++ .dlg p :: (t ++ .rev r :: l2) by rw [he, hst']; simp)
      (mem_after_dlg.2 (Or.inl ⟨q, hq, rfl⟩))
    rw [hst']
    exact List.mem_append_left _ this
  have hin := stands hc hs ha he hql hst.1 hst.2
  obtain ⟨ds, hds, hqd⟩ := (hR.play hin).2.2.2
  rw [hby] at hds
  unfold honours
  rw [hp]
  simp only [hds]
  split
  · rw [List.any_eq_true]
    exact ⟨q, hqd, by simpa using hcan⟩
  · rfl

/-- C119: someone who still has access to the group, and never had as much as the delegation they rest a revocation on, which they
made up in their own name, does not get it counted. -/
theorem C119_made_up {g : Group} (h : Reach H g) (hc : NoClash H g.heads) (hs : NoClash Op.sig g.heads)
    (ha : Acyclic g.heads) {r : Rev} {p : Dlg} (hp : r.proof = some p) (hroot : p.proof = none) (hown : p.issuer ≠ g.id)
    {d : Dlg} (hd : d ∈ r.revoke :: r.revoke.lineage) (hto : d.delegate.id = p.issuer) (hst : Stands g r d)
    (hless : ∀ e, g.Holds (.dlg e) → e.delegate.id = p.issuer → e.can < p.can) : ¬ g.InEffect r := by
  intro hin
  rw [effect_view (reach_good h).2] at hin
  obtain ⟨l1, l2, he, hh⟩ := active_honoured _ hin
  have hl : ∀ o ∈ l1, g.Holds o := fun o ho => history_below hc (by rw [he]; simp [ho])
  have hR := replay_inv (gid := g.id) (ctx_of hs) l1 hl
  have hf : ProofFirst l1 := prefix_first (by rw [← he]; exact proof_first hc ha)
  have hrl : .dlg r.revoke ∈ l1 := history_causal hc ha he (mem_after_rev.2 (Or.inl rfl))
  have hpl : .dlg p ∈ l1 := history_causal hc ha he (mem_after_rev.2 (Or.inr ⟨p, hp, rfl⟩))
  have up : ∀ {x a : Dlg}, .dlg x ∈ l1 → a ∈ x.lineage → .dlg a ∈ l1 := by
    intro x
    induction hn : x.lineage.length using Nat.strong_induction_on generalizing x with
    | _ n ih =>
      intro a hx hax
      cases hq : x.proof with
      | none => cases x <;> simp_all [Dlg.proof, Dlg.lineage]
      | some q =>
        obtain ⟨s, t, hst⟩ := List.append_of_mem hx
        have hql : .dlg q ∈ l1 := by
          rw [hst]
          exact List.mem_append_left _ (hf s x t hst q hq)
        rw [Dlg.lineage_proof hq] at hax hn
        rcases List.mem_cons.1 hax with rfl | hax
        · exact hql
        · exact ih q.lineage.length (by rw [← hn]; simp) rfl hql hax
  have hdl : .dlg d ∈ l1 := by
    rcases List.mem_cons.1 hd with rfl | hd
    · exact hrl
    · exact up hrl hd
  have hplay := stands hc hs ha he hdl hst.1 hst.2
  obtain ⟨ds, hds, -⟩ := (hR.play hplay).2.2.2
  rw [hto] at hds
  have hlost : (replay g.id l1).lost p = true := by
    cases hlo : (replay g.id l1).lost p with
    | true => rfl
    | false =>
      exfalso
      obtain ⟨_, p', h2⟩ := lost_false hlo
      obtain ⟨h3, h4, _, h6⟩ := hR.play h2
      have : p' = p := (ctx_of hs).dlg (hl _ h4) (hl _ hpl) h3
      subst this
      have hj := (hR.mem h6).2.2.1
      cases hj with
      | root _ _ h8 => exact hown h8
      | chain _ h8 _ => rw [hroot] at h8; cases h8
      | group _ h8 _ => rw [hroot] at h8; cases h8
      | alt _ h8 _ _ _ => rw [hroot] at h8; cases h8
  unfold honours at hh
  rw [hp] at hh
  simp only [hlost, if_true, hds, List.any_eq_true, decide_eq_true_eq] at hh
  obtain ⟨e, h1, h2⟩ := hh
  obtain ⟨h3, h4, _⟩ := hR.mem ⟨ds, hds, h1⟩
  exact le_lt h2 (hless e (hl _ h4) h3)

/-! ## Concrete groups -/

/-- Bob, made admin by Alice, adds Carol; Alice revokes Bob. -/
def gOut : Group := okG (deliver noN g0 [.dlg dBob, .dlg dCar2, .rev rBob])
theorem gOut_reach : Reach Sample.H gOut := deliver_reach rfl (by decide +kernel)
/-- Bob, no longer a member, revokes Carol with the delegation that was revoked. -/
def rCar : Rev := .via 2 98 dCar2 dBob []
/-- The group after this. -/
def gAfter : Group := okG (deliver noN gOut [.rev rCar])
theorem gAfter_reach : Reach Sample.H gAfter :=
  .accept gOut_reach (.rev noN (by decide +kernel : gOut.receiveRevocation Sample.H noN rCar = .ok gAfter))

/-- What it holds. -/
def opsAfter : List Op := [.dlg p0, .dlg dBob, .dlg dCar2, .rev rBob, .rev rCar]

theorem after_closed : Closed gAfter.heads opsAfter := by decide +kernel
theorem after_hash : NoClash Sample.H gAfter.heads := noClash_of opsAfter after_closed (by decide +kernel)
theorem after_sig : NoClash Op.sig gAfter.heads := noClash_of opsAfter after_closed (by decide +kernel)
theorem after_acyclic : Acyclic gAfter.heads :=
  acyclic_of_direct after_sig (direct_of opsAfter after_closed (by decide +kernel))
theorem after_held {o : Op} (h : gAfter.Holds o) : o ∈ opsAfter := after_closed.below h
theorem after_rCar : gAfter.Holds (.rev rCar) := Below.head (by decide +kernel)
theorem after_rBob : gAfter.Holds (.rev rBob) := Below.head (by decide +kernel)

/-- Alice's delegation stands. -/
theorem after_stands (r : Rev) : Stands gAfter r p0 := by
  refine ⟨by decide +kernel, fun r' hr' _ a ha => ?_⟩
  have h := after_held hr'
  have ha' : a = p0 := by simpa [p0, Dlg.lineage] using ha
  subst ha'
  simp only [opsAfter, List.mem_cons, Op.rev.injEq, List.not_mem_nil, or_false, reduceCtorEq, false_or] at h
  rcases h with rfl | rfl <;> decide +kernel

example : ∃ p, rBob.proof = some p ∧ Stands gAfter rBob p := ⟨p0, rfl, after_stands rBob⟩
example : gAfter.InEffect rBob :=
  C119_valid_counts_partial gAfter_reach after_hash after_sig after_acyclic after_rBob (Or.inr ⟨p0, rfl, after_stands rBob⟩)
example : gAfter.InEffect rCar :=
  C119_given_counts gAfter_reach after_hash after_sig after_acyclic after_rCar rfl rfl rfl (by decide) (after_stands rCar)

/-- The group key makes 5 admin, who adds 6, then revokes their own delegation, and then that of 6 on the strength of it. -/
def d6 : Dlg := .link 5 61 (ind 6) .edit e5 .nil []
/-- 5 leaves. -/
def r5 : Rev := .via 5 62 e5 e5 []
/-- 5 revokes 6. -/
def r6 : Rev := .via 5 63 d6 e5 []
/-- The group. -/
def gRoot : Group := okG (deliver noN g0 [.dlg e5, .dlg d6, .rev r5, .rev r6])
theorem gRoot_reach : Reach Sample.H gRoot := deliver_reach rfl (by decide +kernel)
/-- What it holds. -/
def opsRoot : List Op := [.dlg p0, .dlg e5, .dlg d6, .rev r5, .rev r6]
theorem root_closed : Closed gRoot.heads opsRoot := by decide +kernel
theorem root_sig : NoClash Op.sig gRoot.heads := noClash_of opsRoot root_closed (by decide +kernel)

example : gRoot.InEffect r6 := by
  refine C119_root_counts (p := e5) gRoot_reach (noClash_of opsRoot root_closed (by decide +kernel)) root_sig
    (acyclic_of_direct root_sig (direct_of opsRoot root_closed (by decide +kernel))) (Below.head (by decide +kernel)) rfl ?_
  intro d hd
  have h := root_closed.below hd
  simp only [opsRoot, List.mem_cons, Op.dlg.injEq, List.not_mem_nil, or_false, reduceCtorEq] at h
  rcases h with rfl | rfl | rfl <;> decide +kernel

/-- Bob's own team 900. -/
def bobsTeam : Group := Group.new Sample.H (.root 900 90 (ind 2) .admin .nil [])
/-- Bob makes it an admin in their own name. -/
def bobsProof : Dlg := .root 2 91 (grp 900) .admin .nil []
/-- Bob, who has edit access, revokes Carol with this as proof. -/
def rMade : Rev := .via 2 92 d2 bobsProof []
/-- The group after this. -/
def gMade : Group := okG (deliver (membersOf [(900, bobsTeam)] []) gCarol [.rev rMade])
theorem gMade_reach : Reach Sample.H gMade :=
  .accept gCarol_reach (.rev (membersOf [(900, bobsTeam)] [])
    (by decide +kernel : gCarol.receiveRevocation Sample.H (membersOf [(900, bobsTeam)] []) rMade = .ok gMade))
/-- What it holds. -/
def opsMade : List Op := [.dlg p0, .dlg d1, .dlg d2, .dlg bobsProof, .rev rMade]
theorem made_closed : Closed gMade.heads opsMade := by decide +kernel
theorem made_hash : NoClash Sample.H gMade.heads := noClash_of opsMade made_closed (by decide +kernel)
theorem made_sig : NoClash Op.sig gMade.heads := noClash_of opsMade made_closed (by decide +kernel)
theorem made_acyclic : Acyclic gMade.heads := by
  have h1 : ∀ {a b}, Needs gMade.heads a b → opsMade.idxOf b < opsMade.idxOf a := by
    intro a b h
    cases h with
    | dep ha hab =>
      have key : ∀ a ∈ opsMade, ∀ b ∈ a.after, opsMade.idxOf b < opsMade.idxOf a := by decide +kernel
      exact key a (made_closed.below ha) b hab
    | revoked hd hr hp hsig =>
      have key : ∀ x ∈ opsMade, ∀ d, x = .dlg d → ∀ p ∈ d.proof, p.sig ≠ d2.sig := by
        intro x hx d hd p hp
        subst hd
        simp only [opsMade, List.mem_cons, Op.dlg.injEq, List.not_mem_nil, or_false, reduceCtorEq] at hx
        rcases hx with rfl | rfl | rfl | rfl <;> cases hp <;> decide
      have h := made_closed.below hr
      simp only [opsMade, List.mem_cons, Op.rev.injEq, List.not_mem_nil, or_false, reduceCtorEq, false_or] at h
      subst h
      exact absurd hsig.symm (key _ (made_closed.below hd) _ rfl _ hp)
  have h2 : ∀ {a b}, Relation.TransGen (Needs gMade.heads) a b → opsMade.idxOf b < opsMade.idxOf a := by
    intro a b h
    induction h with
    | single h => exact h1 h
    | tail _ h ih => exact (h1 h).trans ih
  exact fun o h => absurd (h2 h) (Nat.lt_irrefl _)

example : gMade.Holds (.rev rMade) ∧ ¬ gMade.InEffect rMade := by
  refine ⟨Below.head (by decide +kernel), ?_⟩
  refine C119_made_up (d := d1) gMade_reach made_hash made_sig ?_ rfl rfl (by decide) (by decide) rfl ⟨by decide +kernel, ?_⟩ ?_
  · exact made_acyclic
  · intro r' hr' hne a _
    have h := made_closed.below hr'
    simp only [opsMade, List.mem_cons, Op.rev.injEq, List.not_mem_nil, or_false, reduceCtorEq, false_or] at h
    exact absurd h hne
  · intro e he
    have h := made_closed.below he
    simp only [opsMade, List.mem_cons, Op.dlg.injEq, List.not_mem_nil, or_false, reduceCtorEq] at h
    rcases h with rfl | rfl | rfl | rfl <;> decide

/-- C119 fails: Alice revokes Bob, and Bob is no longer a member; then Bob revokes Carol, with the delegation that was revoked as
proof. The group accepts this, both revocations count, and Carol, a member until then, is one no more. -/
theorem C119_fails : ∃ g g' r r' d, Reach Sample.H g ∧ g.InEffect r ∧ (¬ ∃ e, g.MemberBy 2 e) ∧ g.MemberBy 3 d ∧
    r'.issuer = 2 ∧ r'.proof = some r.revoke ∧ r'.revoke = d ∧ g.receiveRevocation Sample.H noN r' = .ok g' ∧
    g'.InEffect r ∧ g'.InEffect r' ∧ ¬ ∃ e, g'.MemberBy 3 e := by
  refine ⟨gOut, gAfter, rBob, rCar, dCar2, gOut_reach, by unfold Group.InEffect; decide +kernel, ?_,
    ⟨[dCar2], by decide +kernel, by simp⟩, rfl, rfl, rfl, by decide +kernel, by unfold Group.InEffect; decide +kernel,
    by unfold Group.InEffect; decide +kernel, ?_⟩
  · rintro ⟨e, ds, h, _⟩
    have : AMap.get gOut.members 2 = none := by decide +kernel
    rw [this] at h
    cases h
  · rintro ⟨e, ds, h, _⟩
    have : AMap.get gAfter.members 3 = none := by decide +kernel
    rw [this] at h
    cases h

end Verif.Group.CountProps
