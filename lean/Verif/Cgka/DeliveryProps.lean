import Verif.Cgka.LinearLemmas
import Verif.Cgka.TrustSample

/-!
# Properties: content in groups whose replicas all run the library (C80, and C62 and C63 for such groups)

The vocabulary is in `Verif.Cgka.Spec` and `Verif.Cgka.TrustSpec`.
-/

namespace Verif.Cgka.DeliveryProps

open Verif.BeeKem Verif.Cgka Relation

/-- C80, for groups without concurrent operations: whatever a member of the group writes can be read, then and at any
later time, by every replica that has received the operations the writer had and whose owner holds the secret of its
own leaf in the writer's tree. (The header must name the writer's last operation; see `C80_header`, and `C63_fails_for_readers` for
how it can come to name another.) Missing: concurrent operations. -/
theorem C80_content_reaches_members_partial {H : SOp → Nat} (hH : Function.Injective H) {a a' b : Cgka} (ha : Trusted H a)
    (hb : Trusted H b) {sign : Payload → Res SOp} (hs : GoodSigner sign) {g : BeeKem.Gen} {n r ps : Nat} {s : AppSecret}
    {op : Option SOp} (he : a.newAppSecretFor H sign g n r ps = (a', .ok (s, op))) (hl : Linear b)
    (hk : ∀ x, Knows a' x → Knows b x) (hh : a'.graph.heads = [s.pcsUpdateOpHash])
    (hm : HoldsLeaf a'.tree b.ownerId b.ownerSks) (p : Nat) :
    ∃ key, (b.decryptionKeyFor H (s.encrypt p)).2 = .ok key ∧ (s.encrypt p).openWith key = some p := by
  have sb := reachOk_inv hH (trusted_ok hb)
  have hst' : step H a (.encrypt sign g n r ps) = a' := by
    show (a.newAppSecretFor H sign g n r ps).1 = a'
    rw [he]
  have ha' : Trusted H a' := by
    rw [← hst']
    exact .call ha trivial hs
  have sa := reachOk_inv hH (trusted_ok ha)
  have sa' := reachOk_inv hH (trusted_ok ha')
  have hlb := (linear_iff sb.graph).1 hl
  have hla' : LinearG a'.graph := hlb.sub hH sa'.graph sb.graph (fun x hx => (knows_iff b x).1 (hk x ((knows_iff a' x).2 hx)))
  have hla : LinearG a.graph := by
    refine hla'.sub hH sa.graph sa'.graph ?_
    intro x hx
    rw [← hst']
    rcases own_graph H a (cmd := .encrypt sign g n r ps) trivial (Sample.good_honest hs) with h1 | ⟨o, _, h1⟩
    · rw [h1]; exact hx
    · rw [h1]
      show AMap.get (AMap.insert a.graph.ops (H o) o) x ≠ none
      rw [AMap.get_insert]
      split <;> simp_all
  obtain ⟨k, o, hsec, hr, hroot⟩ := encrypt_root hH ha hs he hla
  have hstrong : Strong a'.tree := strong_of_witness hH ha' (trusted_witness hH ha') hla'
  have hstb : Strong b.tree := strong_of_witness hH hb (trusted_witness hH hb) hlb
  obtain ⟨q, hq, _⟩ := Props.C16_current_secret hH (trusted_ok hb)
  have ho : s.pcsUpdateOpHash = o := by rw [hsec]; rfl
  rw [ho] at hh
  have hcb := trusted_clean hH hb
  have := LaterProps.C73_content_partial hH (trusted_ok hb) (trusted_ok ha') ((oneRoot_iff sb.graph).2 hlb.oneRoot)
    ((Props.tidy_iff sa'.graph).2 (trusted_tidy hH ha')) hh hk hq hstb.calm (k := k) ?_ r ps p
  · rw [hsec]; exact this
  · rintro sks (rfl | ⟨c1, k1, h1, rfl⟩)
    · exact open_tree hstrong hcb.keys hm hr hroot rfl rfl rfl
    · obtain ⟨a1, _, a3⟩ := hcb.treeRoot h1
      exact open_tree hstrong a1.keys (HoldsLeaf.grow hm a3) hr hroot rfl rfl rfl

-- Alice writes after their first update; Bob reads after having received the second one, too.
open Sample in
example : Trusted H alice3 ∧ Trusted H bob7 ∧ GoodSigner (sign 9) ∧ Linear bob7 ∧
    (match alice3.newAppSecretFor H (sign 9) gen 20 5 6 with
      | (a', .ok (s, none)) => decide (∀ x ∈ AMap.keys a'.graph.ops, AMap.contains bob7.graph.ops x = true) &&
          decide (a'.graph.heads = [s.pcsUpdateOpHash]) && decide (s.pcsKeyHash = ⟨1001⟩) &&
          decide (a'.tree.nodeKeyForId bob7.ownerId = .ok (.share ⟨22⟩)) && decide (AMap.get bob7.ownerSks ⟨22⟩ = some 22)
      | _ => false) = true ∧
    AMap.get bob7.pcsKeys ⟨1001⟩ = none := by
  refine ⟨alice3_trusted, bob7_trusted, sign_good 9, linear_of [7, 3, 2, 1, 0] (by decide +kernel) (by decide +kernel),
    by decide +kernel, by decide +kernel⟩

/-- C80: two replicas that know the same operations and each hold the secret of their own leaf derive the same group
secret, when no operations are concurrent and the root has a key. -/
theorem C80_same_group_secret_partial {H : SOp → Nat} (hH : Function.Injective H) {a b : Cgka} (ha : Trusted H a)
    (hb : Trusted H b) (hl : Linear a) (hk : ∀ x, Knows a x ↔ Knows b x) (hr : a.tree.hasRootKey = .ok true)
    (hma : HoldsLeaf a.tree a.ownerId a.ownerSks) (hmb : HoldsLeaf b.tree b.ownerId b.ownerSks) :
    ∃ a' b' k, a.pcsKeyFromTreeRoot = .ok (a', k) ∧ b.pcsKeyFromTreeRoot = .ok (b', k) := by
  have sa := reachOk_inv hH (trusted_ok ha)
  have sb := reachOk_inv hH (trusted_ok hb)
  have hla := (linear_iff sa.graph).1 hl
  have hlb : LinearG b.graph := hla.sub hH sb.graph sa.graph (fun x hx => (knows_iff a x).1 ((hk x).2 ((knows_iff b x).2 hx)))
  have hst : Strong a.tree := strong_of_witness hH ha (trusted_witness hH ha) hla
  obtain ⟨x, hx⟩ := hla.heads sa.graph
  obtain ⟨y, hy⟩ := hlb.heads sb.graph
  have hra : a.replayIfNeeded H = .ok a := by
    unfold Cgka.replayIfNeeded
    rw [if_neg]
    rw [shouldReplay_eq sa, hx]
    simp
  obtain ⟨b', h1, h2⟩ := Props.C12_convergence hH (trusted_ok ha) (trusted_ok hb) ((oneRoot_iff sa.graph).2 hla.oneRoot) hk hra
  have := replay_single sb (by rw [hy]; rfl) h1
  subst this
  obtain ⟨sks', k, d1, d2⟩ := strong_decrypt hst hr (trusted_clean hH ha).keys hma
  have hroot := (rootKey_of d2).2
  obtain ⟨a1, e1⟩ := open_tree hst (trusted_clean hH ha).keys hma hr hroot (c := a) rfl rfl rfl
  rw [h2] at hmb
  obtain ⟨b1, e2⟩ := open_tree hst (trusted_clean hH hb).keys hmb hr hroot (c := b') h2 rfl rfl
  exact ⟨a1, b1, k, e1, e2⟩

open Sample in
example : Trusted H alice3 ∧ Trusted H bob3 ∧ Linear alice3 ∧ (∀ x, Knows alice3 x ↔ Knows bob3 x) ∧
    alice3.tree.hasRootKey = .ok true ∧ HoldsLeaf alice3.tree alice3.ownerId alice3.ownerSks ∧
    HoldsLeaf bob3.tree bob3.ownerId bob3.ownerSks :=
  ⟨alice3_trusted, bob3_trusted, linear_of [3, 2, 1, 0] (by decide +kernel) (by decide +kernel),
    same_of (by decide +kernel) (by decide +kernel), by decide +kernel, ⟨⟨12⟩, 12, by decide +kernel, by decide +kernel⟩,
    ⟨⟨22⟩, 22, by decide +kernel, by decide +kernel⟩⟩

/-- C80: when writing needed a key update, the header names that update, the writer's last operation. -/
theorem C80_header {H : SOp → Nat} {a a' : Cgka} {sign : Payload → Res SOp} {g : BeeKem.Gen} {n r ps : Nat} {s : AppSecret}
    {o : SOp} (he : a.newAppSecretFor H sign g n r ps = (a', .ok (s, some o))) :
    s.pcsUpdateOpHash = H o ∧ a'.graph.heads = [s.pcsUpdateOpHash] := by
  have hfin : ∀ (c : Cgka) (k : Sk) (o' : Option SOp), c.finishAppSecret k o' r ps = (a', .ok (s, some o)) →
      a' = c ∧ o' = some o ∧ AMap.get c.pcsKeyOps ⟨k⟩ = some s.pcsUpdateOpHash := by
    intro c k o' hf
    unfold Cgka.finishAppSecret at hf
    split at hf
    · simp at hf
    · rename_i y hy
      simp only [Prod.mk.injEq, Except.ok.injEq] at hf
      refine ⟨hf.1.symm, hf.2.2, ?_⟩
      rw [hy, ← hf.2.1]; rfl
  unfold Cgka.newAppSecretFor at he
  split at he
  · simp at he
  · split at he
    · simp at he
    · rename_i c1 k o' hq
      obtain ⟨rfl, h1, h2⟩ := hfin _ _ _ he
      cases h1
      have h3 : s.pcsUpdateOpHash = H o := by
        have h2 : AMap.get (AMap.insert c1.pcsKeyOps ⟨k⟩ (H o)) ⟨k⟩ = some s.pcsUpdateOpHash := h2
        rw [AMap.get_insert_self] at h2
        simpa using h2.symm
      refine ⟨h3, ?_⟩
      rw [h3]
      unfold Cgka.update at hq
      split at hq
      · simp at hq
      · split at hq
        · simp at hq
        · dsimp only at hq
          split at hq
          · simp at hq
          · split at hq
            · simp at hq
            · simp only [Prod.mk.injEq, Except.ok.injEq] at hq
              obtain ⟨rfl, _, rfl⟩ := hq
              rfl
  · split at he
    · simp at he
    · split at he
      · have := (hfin _ _ _ he).2.1; simp at this
      · split at he
        · have := (hfin _ _ _ he).2.1; simp at this
        · have := (hfin _ _ _ he).2.1; simp at this

-- Alice writes before any update: the library makes one.
open Sample in
example : (match alice2.newAppSecretFor H (sign 3) gen 0 5 6 with | (_, .ok (_, some _)) => true | _ => false) = true := by
  decide +kernel

/-! ## Headers (C63) -/

/-- A content nobody wrote: Alice's current group secret with a header naming an older operation. -/
def forged : EncContent := ⟨⟨0, 0, 0⟩, 0, ⟨1001⟩, 2, 0, 0⟩

/-- C63 is false, with consequences for readers: the header of content is not authenticated, and a replica that tries to open forged content remembers
its header. What Bob writes afterwards carries the forged header, and Carol, who could have read it otherwise, cannot. -/
theorem C63_fails_for_readers : ∃ (H : SOp → Nat) (bob carol : Cgka) (sign : Payload → Res SOp) (g : BeeKem.Gen) (e : EncContent),
    Function.Injective H ∧ Trusted H bob ∧ Trusted H carol ∧ GoodSigner sign ∧
    (∃ b s key, bob.newAppSecretFor H sign g 0 5 6 = (b, .ok (s, none)) ∧
      (carol.decryptionKeyFor H (s.encrypt 7)).2 = .ok key ∧ (s.encrypt 7).openWith key = some 7) ∧
    ∃ b s err, (step H bob (.decrypt e)).newAppSecretFor H sign g 0 5 6 = (b, .ok (s, none)) ∧
      (carol.decryptionKeyFor H (s.encrypt 7)).2 = .error err := by
  refine ⟨Sample.H, Sample.bob3, Sample.carol7, Sample.sign 9, Sample.gen, forged, Sample.H_inj, Sample.bob3_trusted,
    Sample.carol7_trusted, Sample.sign_good 9, ?_, ?_⟩
  · have h : (match Sample.bob3.newAppSecretFor Sample.H (Sample.sign 9) Sample.gen 0 5 6 with
        | (_, .ok (s, none)) => (match (Sample.carol7.decryptionKeyFor Sample.H (s.encrypt 7)).2 with
            | .ok key => decide ((s.encrypt 7).openWith key = some 7)
            | .error _ => false)
        | _ => false) = true := by decide +kernel
    split at h
    · rename_i b s hq
      split at h
      · rename_i key hk
        exact ⟨b, s, key, hq, hk, by simpa using h⟩
      · simp at h
    · simp at h
  · have h : (match (step Sample.H Sample.bob3 (.decrypt forged)).newAppSecretFor Sample.H (Sample.sign 9) Sample.gen 0 5 6 with
        | (_, .ok (s, none)) => (match (Sample.carol7.decryptionKeyFor Sample.H (s.encrypt 7)).2 with
            | .ok _ => false
            | .error _ => true)
        | _ => false) = true := by decide +kernel
    split at h
    · rename_i b s hq
      split at h
      · simp at h
      · rename_i err hk
        exact ⟨b, s, err, hq, hk⟩
    · simp at h

/-! ## Rebuilding (C62) -/

/-- C62, for groups whose replicas all run the library and never merge forks: the tree kept by applying operations one by
one is the tree a rebuild from nothing produces, under any concurrency. -/
theorem C62_incremental_is_replay_trusted {H : SOp → Nat} (hH : Function.Injective H) {a a' : Cgka} (ha : Trusted H a)
    (h1 : OneRoot a) (hra : a.replayIfNeeded H = .ok a') : ReplaysTo H a a'.tree :=
  Props.C62_incremental_is_replay_partial hH (trusted_ok ha) h1
    ((Props.tidy_iff (reachOk_inv hH (trusted_ok ha)).graph).2 (trusted_tidy hH ha)) hra

open Sample in
example : Trusted H bobMerged ∧ OneRoot bobMerged ∧ bobMerged.graph.heads = [7, 6] ∧ (∃ a, bobMerged.replayIfNeeded H = .ok a) :=
  ⟨bobMerged_trusted, oneRoot_of 0 (by decide +kernel), by decide +kernel, ok_of (by decide +kernel)⟩

end Verif.Cgka.DeliveryProps
