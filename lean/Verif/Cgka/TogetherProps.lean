import Verif.Cgka.TogetherLemmas
import Verif.Cgka.CutSample
import Verif.Cgka.CalmCalls

/-!
# Properties: content in groups whose members update their keys at the same time (C80)

The vocabulary is in `Verif.Cgka.Spec`, `Verif.Cgka.TrustSpec` and `Verif.Cgka.TogetherSpec`.
-/

namespace Verif.Cgka

open Verif.BeeKem Relation

theorem joined_update {H : SOp → Nat} (hH : Function.Injective H) {sign : Payload → Res SOp} (hg : GoodSigner sign) {c : Cgka}
    (hc : Trusted H c) (T : TogetherG c.graph) (g : BeeKem.Gen) (n : Nat) (sk : Sk) :
    ∀ k op, (c.update H sign g n sk).2 = .ok (k, op) → Spec.RootSecret (c.update H sign g n sk).1.tree k := by
  have sc := reachOk_inv hH (trusted_ok hc)
  obtain ⟨c1, e1, e2, -⟩ := joins_replay hH hc T
  have hcl := ((trusted_clean hH hc).replay sc e1).1
  unfold Cgka.update
  rw [e1]
  dsimp only
  split
  · simp
  · rename_i uid upk usk ht
    have := updateTarget_pure hcl ht
    subst this
    split
    · simp
    · rename_i t sks n' k pc henc
      obtain ⟨o, ho, _⟩ := hg (.update uid pc c1.graph.heads)
      rw [ho]
      dsimp only
      obtain ⟨a, b⟩ := strong_update e2 (AMap.get_insert_self _ _ _) henc
      intro k' op' he
      simp only [Except.ok.injEq, Prod.mk.injEq] at he
      rw [← he.1]
      exact b

theorem joined_root {H : SOp → Nat} (hH : Function.Injective H) {a a' : Cgka} (ha : Trusted H a)
    {sign : Payload → Res SOp} (hs : GoodSigner sign) {g : BeeKem.Gen} {n r ps : Nat} {s : AppSecret} {op : Option SOp}
    (he : a.newAppSecretFor H sign g n r ps = (a', .ok (s, op))) (T : TogetherG a.graph) :
    ∃ k o, s = deriveApplicationSecret k r ps o ∧ a'.tree.hasRootKey = .ok true ∧
      a'.tree.nodeKeyForIndex (TreeMath.root a'.tree.treeSize) = .ok (.share ⟨k⟩) := by
  have hc := trusted_clean hH ha
  have hfin : ∀ (c : Cgka) (k : Sk) (o : Option SOp), c.finishAppSecret k o r ps = (a', .ok (s, op)) →
      a' = c ∧ ∃ h, s = deriveApplicationSecret k r ps h := by
    intro c k o hf
    unfold Cgka.finishAppSecret at hf
    split at hf
    · simp at hf
    · rename_i y hy
      simp only [Prod.mk.injEq, Except.ok.injEq] at hf
      exact ⟨hf.1.symm, y, hf.2.1.symm⟩
  have hroot : a.hasPcsKey = .ok true → a.tree.hasRootKey = .ok true := by
    intro h
    unfold Cgka.hasPcsKey at h
    cases hq : a.tree.hasRootKey with
    | error e => rw [hq] at h; simp [bind, Except.bind] at h
    | ok b =>
      rw [hq] at h
      simp only [bind, Except.bind, pure, Except.pure, Except.ok.injEq, Bool.and_eq_true] at h
      rw [h.1.1]
  unfold Cgka.newAppSecretFor at he
  split at he
  · simp at he
  · have hu := joined_update hH hs ha T g (n + 1) (g n)
    split at he
    · simp at he
    · rename_i c1 k o hq
      rw [hq] at hu
      obtain ⟨rfl, y, hy⟩ := hfin _ _ _ he
      have := rootKey_of (hu k o rfl)
      exact ⟨k, y, hy, this.1, this.2⟩
  · rename_i hp
    split at he
    · simp at he
    · rename_i c1 k hr
      have ht : c1.tree = a.tree := by
        have := (treeRoot_tg hr).1
        simp only [tg, Prod.mk.injEq] at this
        exact this.1
      have hk := (hc.treeRoot hr).2.1
      rw [← ht] at hk
      have hb : c1.tree.hasRootKey = .ok true := by rw [ht]; exact hroot hp
      split at he
      · obtain ⟨rfl, y, hy⟩ := hfin _ _ _ he
        exact ⟨k, y, hy, hb, hk⟩
      · split at he
        · obtain ⟨rfl, y, hy⟩ := hfin _ _ _ he
          exact ⟨k, y, hy, hb, hk⟩
        · obtain ⟨rfl, y, hy⟩ := hfin _ _ _ he
          exact ⟨k, y, hy, hb, hk⟩

/-! ## A sample history -/

/-- Whether a chain of at most `n` named predecessors leads from `y` to `x`. -/
def leadsTo (c : Cgka) : Nat → Nat → Nat → Bool
  | 0, _, _ => false
  | n + 1, x, y => match AMap.get c.graph.ops y with
    | some o => o.payload.preds.any (fun z => decide (z = x) || leadsTo c n x z)
    | none => false

theorem before_of {c : Cgka} : ∀ {n x y : Nat}, leadsTo c n x y = true → Before c x y
  | 0, _, _, h => by simp [leadsTo] at h
  | n + 1, x, y, h => by
    unfold leadsTo at h
    cases ho : AMap.get c.graph.ops y with
    | none => rw [ho] at h; simp at h
    | some o =>
      rw [ho] at h
      simp only [List.any_eq_true, Bool.or_eq_true, decide_eq_true_eq] at h
      obtain ⟨z, hz, rfl | hb⟩ := h
      · exact .direct ⟨o, ho, hz⟩
      · exact .more (before_of hb) ⟨o, ho, hz⟩

/-- One of the two is the other or comes before it. -/
def inOrder (c : Cgka) (x y : Nat) : Bool := decide (x = y) || leadsTo c 20 x y || leadsTo c 20 y x

theorem inOrder_spec {c : Cgka} {x y : Nat} (h : inOrder c x y = true) : x = y ∨ Before c x y ∨ Before c y x := by
  unfold inOrder at h
  simp only [Bool.or_eq_true, decide_eq_true_eq] at h
  rcases h with (h | h) | h
  · exact .inl h
  · exact .inr (.inl (before_of h))
  · exact .inr (.inr (before_of h))

/-- Who makes an update. -/
def updater (p : Payload) : Option MemberId :=
  match p with
  | .update id _ _ => some id
  | _ => none

/-- Every change is ordered with everything. -/
def changesCheck (c : Cgka) : Bool :=
  c.graph.ops.all (fun p => c.graph.ops.all (fun q => (updater p.2.payload).isSome || inOrder c q.1 p.1))

/-- Updates by one member are ordered. -/
def turnsCheck (c : Cgka) : Bool :=
  c.graph.ops.all (fun p => c.graph.ops.all (fun q =>
    (updater p.2.payload).isNone || decide (updater p.2.payload ≠ updater q.2.payload) || inOrder c p.1 q.1))

theorem changes_of {c : Cgka} (h : changesCheck c = true) : ChangesApart c := by
  rintro x y ⟨o, ho, hn⟩ ⟨o', ho'⟩
  have h1 := List.all_eq_true.1 (List.all_eq_true.1 h _ (AMap.mem_of_get ho)) _ (AMap.mem_of_get ho')
  have hu : (updater o.payload).isSome = false := by
    unfold updater
    split
    · rename_i id pc ps e
      exact absurd e (hn id pc ps)
    · rfl
  simp only [hu, Bool.false_or] at h1
  rcases inOrder_spec h1 with h | h | h
  · exact .inl h
  · exact .inr (.inr h)
  · exact .inr (.inl h)

theorem turns_of {c : Cgka} (h : turnsCheck c = true) : UpdatesInTurn c := by
  intro x y ox oy id pc ps pc' ps' hx hy ex ey
  have h1 := List.all_eq_true.1 (List.all_eq_true.1 h _ (AMap.mem_of_get hx)) _ (AMap.mem_of_get hy)
  simp only [ex, ey, updater, Option.isNone_some, Bool.false_or, ne_eq, not_true_eq_false, decide_false] at h1
  exact inOrder_spec h1

namespace TogetherSample

open Sample
open ForkSample (recvAll)

/-- Bob's update, at the same time as Alice's (`o3`). -/
def p4 : SOp := ⟨.update 2
  { leafId := 2, leafIdx := 1, leafPk := .share ⟨23⟩
    path := [node 0 1100 23 [(.leaf 0, box 11 23 1100 11), (.leaf 1, box 11 23 1100 11)],
             node 1 1101 1100 [(.leaf 2, box 33 1100 1101 33), (.inner 0, box 33 1100 1101 33)]]
    removedKeys := [⟨22⟩] } [2], 0, 4⟩
/-- Carol's update when they write, after both. -/
def p5 : SOp := ⟨.update 3
  { leafId := 3, leafIdx := 2, leafPk := .share ⟨1200⟩
    path := [node 2 1201 1200 [(.leaf 2, box 1200 1202 1201 1202)],
             node 1 1203 1201 [(.leaf 1, box 23 1201 1203 23), (.leaf 0, box 12 1201 1203 12), (.inner 2, box 12 1201 1203 12)]]
    removedKeys := [⟨33⟩, ⟨1001⟩, ⟨1101⟩] } [4, 3], 0, 5⟩

noncomputable def H : SOp → Nat := tableH [o0, o1, o2, o3, p4, p5]
theorem H_inj : Function.Injective H := tableH_injective _
theorem start_new : Cgka.newFromInitAdd H 1 ⟨11⟩ o0 = .ok start := by decide +kernel
theorem owner_trusted (me : MemberId) (sk : Sk) : Trusted H (start.withNewOwner me [(⟨sk⟩, sk)]) :=
  .owner me _ (.new ⟨0, [], rfl⟩ start_new) (honest_one sk)

noncomputable def alice3 : Cgka := ForkSample.alice3 H
noncomputable def bob4 : Cgka := step H (recvAll H (start.withNewOwner 2 [(⟨22⟩, 22)]) [o1, o2]) (.update (sign 4) gen 100 23)
/-- Carol has received both updates. -/
noncomputable def carol4 : Cgka := recvAll H (start.withNewOwner 3 [(⟨33⟩, 33)]) [o1, o2, o3, p4]
/-- Carol writes. -/
noncomputable def carol5 : Cgka := step H carol4 (.encrypt (sign 5) gen 200 5 6)
/-- Bob receives Alice's update and Carol's. -/
noncomputable def bob5 : Cgka := recvAll H bob4 [o3, p5]

theorem alice3_trusted : Trusted H alice3 :=
  .call (cmd := .update (sign 3) gen 0 12) (.call (cmd := .add (sign 2) 3 ⟨33⟩) (.call (cmd := .add (sign 1) 2 ⟨22⟩)
    (owner_trusted 1 11) trivial (sign_good 1)) trivial (sign_good 2)) trivial (sign_good 3)
theorem bob4_trusted : Trusted H bob4 := by
  refine .call (cmd := .update (sign 4) gen 100 23) (recvAll_trusted (owner_trusted 2 22) _ ?_) trivial (sign_good 4)
  have h : ∀ o ∈ [o1, o2], AMap.get alice3.graph.ops (H o) = some o := by decide +kernel
  exact fun o ho => ⟨alice3, H o, alice3_trusted, h o ho⟩
theorem carol4_trusted : Trusted H carol4 := by
  refine recvAll_trusted (owner_trusted 3 33) _ ?_
  have h : ∀ o ∈ [o1, o2, o3], AMap.get alice3.graph.ops (H o) = some o := by decide +kernel
  have h' : AMap.get bob4.graph.ops (H p4) = some p4 := by decide +kernel
  intro o ho
  by_cases h4 : o = p4
  · subst h4; exact ⟨bob4, H p4, bob4_trusted, h'⟩
  · refine ⟨alice3, H o, alice3_trusted, h o ?_⟩
    simp only [List.mem_cons, List.not_mem_nil, or_false, h4] at ho ⊢
    exact ho
theorem carol5_trusted : Trusted H carol5 := .call carol4_trusted trivial (sign_good 5)
theorem bob5_trusted : Trusted H bob5 := by
  refine recvAll_trusted bob4_trusted _ ?_
  have h : ∀ o ∈ [o3, p5], AMap.get carol5.graph.ops (H o) = some o := by decide +kernel
  exact fun o ho => ⟨carol5, H o, carol5_trusted, h o ho⟩

end TogetherSample

namespace TogetherProps

/-- C80, for groups in which members may update their keys at the same time: whatever a member of the group writes can be read,
then and at any later time, by every replica that has received the operations the writer had and whose owner holds the secret of
its own leaf in the writer's tree. Members are added and removed while nobody does anything else, nobody updates twice at the same
time, and node keys are not drawn twice. (The header must name the writer's last operation; see `C80_header`.) Missing: additions and
removals at the same time as other operations. -/
theorem C80_content_with_concurrent_updates_partial {H : SOp → Nat} (hH : Function.Injective H) {a a' b : Cgka} (ha : Trusted H a)
    (hb : Trusted H b) {sign : Payload → Res SOp} (hs : GoodSigner sign) {g : BeeKem.Gen} {n r ps : Nat} {s : AppSecret}
    {op : Option SOp} (he : a.newAppSecretFor H sign g n r ps = (a', .ok (s, op))) (h1 : ChangesApart b) (h2 : UpdatesInTurn b)
    (h3 : FreshKeys b) (hk : ∀ x, Knows a' x → Knows b x) (hh : a'.graph.heads = [s.pcsUpdateOpHash])
    (hm : HoldsLeaf a'.tree b.ownerId b.ownerSks) (p : Nat) :
    ∃ key, (b.decryptionKeyFor H (s.encrypt p)).2 = .ok key ∧ (s.encrypt p).openWith key = some p := by
  have sb := reachOk_inv hH (trusted_ok hb)
  have hst' : step H a (.encrypt sign g n r ps) = a' := by
    show (a.newAppSecretFor H sign g n r ps).1 = a'
    rw [he]
  have ha' : Trusted H a' := by
    rw [← hst']
    exact .call ha trivial hs
  have sa := reachOk_inv hH (trusted_ok ha)
  have sa' := reachOk_inv hH (trusted_ok ha')
  have Tb := together_of sb.graph h1 h2 h3
  have hk' : KnownIn a'.graph b.graph := fun x hx => (knows_iff b x).1 (hk x ((knows_iff a' x).2 hx))
  have Ta' := Tb.sub hH sa'.graph sb.graph hk'
  have haa : KnownIn a.graph a'.graph := by
    intro x hx
    rw [← hst']
    rcases own_graph H a (cmd := .encrypt sign g n r ps) trivial (Sample.good_honest hs) with h1 | ⟨o, _, h1⟩
    · rw [h1]; exact hx
    · rw [h1]
      show AMap.get (AMap.insert a.graph.ops (H o) o) x ≠ none
      rw [AMap.get_insert]
      split <;> simp_all
  have Ta := Ta'.sub hH sa.graph sa'.graph haa
  obtain ⟨k, o, hsec, hr, hroot⟩ := joined_root hH ha hs he Ta
  have hstrong : Strong a'.tree := joins_head hH ha' Ta' (by rw [hh]; rfl)
  obtain ⟨h, wb, -⟩ := trusted_near hH hb (together_oneRoot hH hb Tb) Tb.serial
  obtain ⟨q, hq, _⟩ := Props.C16_current_secret hH (trusted_ok hb)
  have ho : s.pcsUpdateOpHash = o := by rw [hsec]; rfl
  rw [ho] at hh
  have hcb := trusted_clean hH hb
  have := LaterProps.C73_content_partial hH (trusted_ok hb) (trusted_ok ha') ((oneRoot_iff sb.graph).2 (together_oneRoot hH hb Tb))
    ((Props.tidy_iff sa'.graph).2 (trusted_tidy hH ha')) hh hk hq (treeRoot_calm wb) (k := k) ?_ r ps p
  · rw [hsec]; exact this
  · rintro sks (rfl | ⟨c1, k1, h1, rfl⟩)
    · exact open_tree hstrong hcb.keys hm hr hroot rfl rfl rfl
    · obtain ⟨a1, _, a3⟩ := hcb.treeRoot h1
      exact open_tree hstrong a1.keys (HoldsLeaf.grow hm a3) hr hroot rfl rfl rfl

-- Alice and Bob update their keys at the same time; Carol receives both updates and writes, with a key update of their own; Bob reads.
open TogetherSample in
open Sample (sign gen sign_good same_of) in
example : Trusted H carol4 ∧ Trusted H bob5 ∧ GoodSigner (sign 5) ∧ ChangesApart bob5 ∧ UpdatesInTurn bob5 ∧ FreshKeys bob5 ∧
    leadsTo bob5 9 3 4 = false ∧ leadsTo bob5 9 4 3 = false ∧
    (match carol4.newAppSecretFor H (sign 5) gen 200 5 6 with
      | (a', .ok (s, some _)) => decide (∀ x ∈ AMap.keys a'.graph.ops, AMap.contains bob5.graph.ops x = true) &&
          decide (a'.graph.heads = [s.pcsUpdateOpHash]) && decide (s.pcsKeyHash = ⟨1203⟩) &&
          decide (a'.tree.nodeKeyForId bob5.ownerId = .ok (.share ⟨23⟩)) && decide (AMap.get bob5.ownerSks ⟨23⟩ = some 23)
      | _ => false) = true :=
  ⟨carol4_trusted, bob5_trusted, sign_good 5, changes_of (by decide +kernel), turns_of (by decide +kernel), fresh_of (by decide +kernel),
    by decide +kernel, by decide +kernel, by decide +kernel⟩

/-- C80: two replicas that know the same operations, among them one that comes after all others, and that each hold the secret of
their own leaf derive the same group secret if the root has a key, though members updated their keys at the same time before. -/
theorem C80_same_secret_with_concurrent_updates_partial {H : SOp → Nat} (hH : Function.Injective H) {a b : Cgka} (ha : Trusted H a)
    (hb : Trusted H b) (h1 : ChangesApart a) (h2 : UpdatesInTurn a) (h3 : FreshKeys a) {x : Nat} (hx : a.graph.heads = [x])
    (hk : ∀ x, Knows a x ↔ Knows b x) (hr : a.tree.hasRootKey = .ok true)
    (hma : HoldsLeaf a.tree a.ownerId a.ownerSks) (hmb : HoldsLeaf b.tree b.ownerId b.ownerSks) :
    ∃ a' b' k, a.pcsKeyFromTreeRoot = .ok (a', k) ∧ b.pcsKeyFromTreeRoot = .ok (b', k) := by
  have sa := reachOk_inv hH (trusted_ok ha)
  have sb := reachOk_inv hH (trusted_ok hb)
  have T := together_of sa.graph h1 h2 h3
  have hst : Strong a.tree := joins_head hH ha T (by rw [hx]; rfl)
  have hra : a.replayIfNeeded H = .ok a := by
    unfold Cgka.replayIfNeeded
    rw [if_neg]
    rw [shouldReplay_eq sa, hx]
    simp
  have hy : b.graph.heads.length = 1 := by
    have : b.graph.heads.Perm [x] := by
      rw [List.perm_ext_iff_of_nodup sb.graph.headsN (by simp)]
      intro y
      have hab : SameOps a.graph b.graph := by
        intro z
        have := hk z
        rw [knows_iff, knows_iff] at this
        by_cases hz : AMap.get a.graph.ops z = none
        · by_cases hz' : AMap.get b.graph.ops z = none
          · rw [hz, hz']
          · exact absurd hz (this.2 hz')
        · exact ops_agree hH sa.graph sb.graph hz (this.1 hz)
      rw [← hx, sa.graph.heads, sb.graph.heads, hab y]
      simp only [sa.graph.predOf, sb.graph.predOf, hab _]
    simpa using this.length_eq
  obtain ⟨b', e1, e2⟩ := Props.C12_convergence hH (trusted_ok ha) (trusted_ok hb)
    ((oneRoot_iff sa.graph).2 (together_oneRoot hH ha T)) hk hra
  have := replay_single sb hy e1
  subst this
  obtain ⟨sks', k, d1, d2⟩ := strong_decrypt hst hr (trusted_clean hH ha).keys hma
  have hroot := (rootKey_of d2).2
  obtain ⟨a1, f1⟩ := open_tree hst (trusted_clean hH ha).keys hma hr hroot (c := a) rfl rfl rfl
  rw [e2] at hmb
  obtain ⟨b1, f2⟩ := open_tree hst (trusted_clean hH hb).keys hmb hr hroot (c := b') e2 rfl rfl
  exact ⟨a1, b1, k, f1, f2⟩

open TogetherSample in
open Sample (sign gen sign_good same_of) in
example : Trusted H carol5 ∧ Trusted H bob5 ∧ ChangesApart carol5 ∧ UpdatesInTurn carol5 ∧ FreshKeys carol5 ∧ carol5.graph.heads = [5] ∧
    (∀ x, Knows carol5 x ↔ Knows bob5 x) ∧ carol5.tree.hasRootKey = .ok true ∧
    HoldsLeaf carol5.tree carol5.ownerId carol5.ownerSks ∧ HoldsLeaf bob5.tree bob5.ownerId bob5.ownerSks :=
  ⟨carol5_trusted, bob5_trusted, changes_of (by decide +kernel), turns_of (by decide +kernel), fresh_of (by decide +kernel),
    by decide +kernel, same_of (by decide +kernel) (by decide +kernel), by decide +kernel,
    ⟨⟨1200⟩, 1200, by decide +kernel, by decide +kernel⟩, ⟨⟨23⟩, 23, by decide +kernel, by decide +kernel⟩⟩

end TogetherProps

end Verif.Cgka
