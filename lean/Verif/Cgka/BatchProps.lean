import Verif.Cgka.Batch
import Verif.Cgka.Sample
import Verif.BeeKem.Spec
import Verif.BeeKem.Struct

/-!
# Batches of concurrent membership changes: C71, C72

Replay applies operations that are concurrent with each other as one batch and then repairs the tree
(`sort_leaves_and_blank_paths_for_concurrent_membership_changes`).
-/

namespace Verif.Cgka.BatchProps

open Verif.BeeKem Verif.BeeKem.Spec Verif.TreeMath Verif.Cgka

/-! ## C71: concurrent membership changes retire the group secret -/

/-- **C71.** At any point of any replay, when a batch of concurrent operations contains a membership change that was not known
yet, then after the batch there is no group secret, whatever key updates the batch contains as well; and for each removal in the
batch all keys above the removed member's position are gone. -/
theorem C71_batch_retires_secret {H : SOp → Nat} (hH : Function.Injective H) {c start r r' : Cgka} {before : List (List SOp)}
    {batch : List SOp} (h0 : c.rebuildStart H = .ok start) (h1 : start.applyEpochs H before = .ok r)
    (h2 : r.applyEpoch H batch = .ok r') (hl : 1 < batch.length) {op : SOp} (hop : op ∈ batch)
    (hs : op.payload.isStructural = true) (hn : ¬ Knows r (H op)) :
    r'.tree.hasRootKey = .ok false ∧
      ∀ o ∈ batch, ∀ id l ks ps, o.payload = .remove id l ks ps →
        ∃ p, directPath (.leaf l) r'.tree.treeSize = some p ∧ p ≠ [] ∧ ∀ j ∈ p, r'.tree.innerNodes[j]? = some none := by
  have f : HasFit r.tree := applyEpochs_fit (rebuildStart_fit h0) h1
  obtain ⟨c1, ha, ht⟩ := applyEpoch_batch h2 hl hop hs
  obtain ⟨k, f1⟩ := applyOps_fit f ha
  obtain ⟨k', hk, f2, _, hrem, hroot⟩ := BeeKem.sortLeaves_blank f1 ht
  constructor
  · apply hroot
    by_cases hr : Cgka.removedIds batch = []
    · right
      have hnr : ∀ o ∈ batch, ∀ id i ks ps, o.payload ≠ .remove id i ks ps := by
        intro o ho id i ks ps hp
        have := mem_removedIds ho hp
        rw [hr] at this
        simp at this
      refine ⟨?_, (applyOps_next hH f hnr ha).2 op hop hs ?_⟩
      · cases hp : op.payload with
        | add id pk l ps as =>
          intro hc
          have := mem_addedIds hop hp
          rw [hc] at this
          simp at this
        | remove id l ks ps => exact absurd hp (hnr _ hop _ _ _ _)
        | update id pc ps => rw [hp] at hs; simp [Payload.isStructural] at hs
      · cases hg : AMap.get r.graph.ops (H op) with
        | none => rfl
        | some o => exact absurd ⟨o, hg⟩ hn
    · exact .inl hr
  · intro o ho id l ks ps hp
    obtain ⟨hlt, hb⟩ := hrem _ (mem_removedIds ho hp)
    have hlt' : l < 2 ^ k' := Nat.lt_of_lt_of_le hlt (Nat.pow_le_pow_right (by decide) hk)
    have hdp : directPath (.leaf l) r'.tree.treeSize = some (BeeKem.path k' l) := by
      rw [f2.shape.size]
      exact directPath_leaf hlt'
    refine ⟨_, hdp, ?_, ?_⟩
    · intro hc
      have h1 := congrArg List.length hc
      have h2 := f2.shape.pos
      simp only [BeeKem.path, List.length_map, List.length_range, List.length_nil] at h1
      omega
    · intro j hj
      have hb' := hb j hj
      unfold BeeKem.innerD at hb'
      have hin : j < r'.tree.innerNodes.length := by
        rw [f2.shape.inner]
        obtain ⟨t, ht, rfl⟩ := BeeKem.mem_path.1 hj
        refine nodeInner_lt.2 ⟨ht, ?_⟩
        rw [Nat.div_lt_iff_lt_mul (Nat.two_pow_pos _), ← Nat.pow_add]
        rwa [show k' - (t + 1) + (t + 1) = k' by omega]
      rw [List.getElem?_eq_getElem hin] at hb' ⊢
      simpa using hb'

open Sample in
/-- Alice's update and Bob's addition of Dave form such a batch. -/
example : Function.Injective H ∧ (∃ start r r', aliceMerged.rebuildStart H = .ok start ∧
    start.applyEpochs H [[o0], [o1], [o2], [o3]] = .ok r ∧ r.applyEpoch H [o6, o7] = .ok r' ∧ ¬ Knows r (H o6) ∧
    r.tree.hasRootKey = .ok true) ∧ 1 < [o6, o7].length ∧ o6.payload.isStructural = true := by
  have hrun : (do
      let s ← aliceMerged.rebuildStart H
      let r ← s.applyEpochs H [[o0], [o1], [o2], [o3]]
      let _ ← r.applyEpoch H [o6, o7]
      let b ← r.tree.hasRootKey
      pure (AMap.contains r.graph.ops (H o6), b)) = .ok (false, true) := by decide +kernel
  refine ⟨H_inj, ?_, by decide, by decide⟩
  cases h1 : aliceMerged.rebuildStart H with
  | error e => simp [h1, bind, Except.bind] at hrun
  | ok s =>
    cases h2 : s.applyEpochs H [[o0], [o1], [o2], [o3]] with
    | error e => simp [h1, h2, bind, Except.bind] at hrun
    | ok r =>
      cases h3 : r.applyEpoch H [o6, o7] with
      | error e => simp [h1, h2, h3, bind, Except.bind] at hrun
      | ok r' =>
        cases h4 : r.tree.hasRootKey with
        | error e => simp [h1, h2, h3, h4, bind, Except.bind] at hrun
        | ok b =>
          simp only [h1, h2, h3, h4, bind, Except.bind, pure, Except.pure, Except.ok.injEq, Prod.mk.injEq] at hrun
          refine ⟨s, r, r', rfl, h2, h3, ?_, by rw [hrun.2] at h4; exact h4⟩
          rw [knows_of, hrun.1]
          simp

/-! ## C72: a member added concurrently with a removal stays a member -/

/-- **C72** (when the leaf position of every removed member is vacant once all operations of the batch are applied; otherwise
false, see `C72_fails`). After any history of tree operations, the repair of the tree succeeds, keeps every member with its key
at exactly one leaf, keeps the list of members, and leaves no key above a member added in the batch. -/
theorem C72_members_kept_partial {t : BeeKem} {ms : List MemberId} (hist : History t ms) (added : List MemberId)
    (removed : List (MemberId × Nat)) (hv : ∀ p ∈ removed, t.leaves[p.2]? = some none) :
    ∃ t', t.sortLeavesAndBlankPaths added removed = .ok t' ∧
      (∀ id, t'.containsId id = true ↔ id ∈ ms) ∧
      (∀ l, (∃ i, LeafAt t' i l) ↔ ∃ i, LeafAt t i l) ∧
      (∀ id ∈ ms, ∃ i l, LeafAt t' i l ∧ l.id = id ∧ ∀ i' l', LeafAt t' i' l' → l'.id = id → i' = i) ∧
      ∀ id ∈ added, (∀ p ∈ removed, p.1 ≠ id) → ∀ i l, LeafAt t' i l → l.id = id →
        ∃ p, directPath (.leaf i) t'.treeSize = some p ∧ ∀ j ∈ p, t'.innerNodes[j]? = some none := by
  obtain ⟨⟨h, w⟩, hk⟩ := BeeKem.history_inv hist
  have hat : ∀ (t : BeeKem) i l, LeafAt t i l ↔ t.leafD i = some l := by
    intro t i l
    unfold LeafAt BeeKem.leafD
    cases t.leaves[i]? with
    | none => simp
    | some o => simp
  obtain ⟨t', h', e, w', hl, hc, ha⟩ := BeeKem.sortLeaves_ok w added removed (by
    intro p hp
    have := hv p hp
    obtain ⟨hlt, _⟩ := List.getElem?_eq_some_iff.1 this
    refine ⟨by rw [← w.shape.leaves]; exact hlt, ?_⟩
    unfold BeeKem.leafD
    rw [this]; rfl)
  have hmem : ∀ id, t'.containsId id = true ↔ id ∈ ms := by
    intro id
    rw [hc, ← hk]
    unfold BeeKem.containsId
    rw [AMap.contains_iff]
  refine ⟨t', e, hmem, ?_, ?_, ?_⟩
  · intro l
    simp only [hat]
    exact hl l
  · intro id hid
    have := (hmem id).2 hid
    unfold BeeKem.containsId at this
    rw [AMap.contains_iff, AMap.mem_keys_iff] at this
    cases hg : AMap.get t'.idToLeafIdx id with
    | none => simp [hg] at this
    | some i =>
      obtain ⟨l, hil, hlid⟩ := w'.ids id i hg
      refine ⟨i, l, (hat _ _ _).2 hil, hlid, ?_⟩
      intro i' l' hi' hl'
      have := w'.back i' l' ((hat _ _ _).1 hi')
      rw [hl', hg] at this
      cases this; rfl
  · intro id hid hnr i l hi hlid
    have hi' := (hat _ _ _).1 hi
    have hb := ha id hid hnr i l hi' hlid
    have hlt : i < 2 ^ h' := BeeKem.leafD_lt w'.shape (by simp [hi'])
    refine ⟨BeeKem.path h' i, by rw [w'.shape.size]; exact directPath_leaf hlt, ?_⟩
    intro j hj
    have hb' := hb j hj
    unfold BeeKem.innerD at hb'
    have hin : j < t'.innerNodes.length := by
      rw [w'.shape.inner]
      obtain ⟨t, ht, rfl⟩ := BeeKem.mem_path.1 hj
      refine nodeInner_lt.2 ⟨ht, ?_⟩
      rw [Nat.div_lt_iff_lt_mul (Nat.two_pow_pos _), ← Nat.pow_add]
      rwa [show h' - (t + 1) + (t + 1) = h' by omega]
    rw [List.getElem?_eq_getElem hin] at hb' ⊢
    simpa using hb'

/-- Member 1 creates the group, adds 2 and 3, removes 2 and adds 4: afterwards position 1 is vacant. -/
example : ∃ t, History t [4, 3, 1] ∧ ∀ p ∈ [((2 : MemberId), 1)], t.leaves[p.2]? = some none := by
  have hrun : ∃ t, (do
      let t0 ← BeeKem.new 1 ⟨11⟩
      let t1 ← (TreeOp.add 2 (.share ⟨22⟩)).run t0
      let t2 ← (TreeOp.add 3 (.share ⟨33⟩)).run t1
      let t3 ← (TreeOp.remove 2).run t2
      (TreeOp.add 4 (.share ⟨44⟩)).run t3) = .ok t ∧ t.leaves[1]? = some none :=
    ⟨⟨4, [some ⟨1, .share ⟨11⟩⟩, none, some ⟨3, .share ⟨33⟩⟩, some ⟨4, .share ⟨44⟩⟩], [none, none, none], 7,
      [(4, 3), (3, 2), (1, 0)]⟩, by decide +kernel, by decide +kernel⟩
  obtain ⟨t, hr, hv⟩ := hrun
  cases h0 : BeeKem.new 1 ⟨11⟩ with
  | error e => simp [h0, bind, Except.bind] at hr
  | ok t0 =>
    cases h1 : (TreeOp.add 2 (.share ⟨22⟩)).run t0 with
    | error e => simp [h0, h1, bind, Except.bind] at hr
    | ok t1 =>
      cases h2 : (TreeOp.add 3 (.share ⟨33⟩)).run t1 with
      | error e => simp [h0, h1, h2, bind, Except.bind] at hr
      | ok t2 =>
        cases h3 : (TreeOp.remove 2).run t2 with
        | error e => simp [h0, h1, h2, h3, bind, Except.bind] at hr
        | ok t3 =>
          simp only [h0, h1, h2, h3, bind, Except.bind] at hr
          exact ⟨t, .step (.add 4 (.share ⟨44⟩)) (.step (.remove 2) (.step (.add 3 (.share ⟨33⟩))
            (.step (.add 2 (.share ⟨22⟩)) (.start h0) trivial h1) trivial h2) trivial h3) trivial hr, by simpa using hv⟩

open Sample in
/-- Alice after learning of Bob's concurrent addition of Dave. -/
noncomputable def aliceDave : Cgka := (aliceRemoved.mergeConcurrentOperation H o6).1

open Sample in
/-- What happens on Alice's replica from there. -/
theorem aliceDave_run : ∃ c1 c2 k o, aliceDave.replayIfNeeded H = .ok c1 ∧
    aliceDave.update H (sign 9) gen 20 14 = (c2, .ok (k, o)) ∧
    c1.tree.containsId 4 = true ∧ (∀ l ∈ c1.tree.leaves, ∀ x, l = some x → x.id ≠ 4) ∧ c2.tree.containsId 4 = true ∧
    (∃ sks, c2.tree.decryptTreeSecret 2 [(⟨22⟩, 22)] = .ok (sks, k)) ∧
    c2.tree.decryptTreeSecret 4 [(⟨44⟩, 44)] = .error (.panic "Leaf should not be blank") := by
  have hrun : (match aliceDave.replayIfNeeded H, aliceDave.update H (sign 9) gen 20 14 with
      | .ok c1, (c2, .ok (k, _)) =>
        c1.tree.containsId 4 && c1.tree.leaves.all (fun l => match l with | some x => decide (x.id ≠ 4) | none => true) &&
        c2.tree.containsId 4 &&
        (match c2.tree.decryptTreeSecret 2 [(⟨22⟩, 22)] with | .ok (_, k') => decide (k' = k) | .error _ => false) &&
        decide (c2.tree.decryptTreeSecret 4 [(⟨44⟩, 44)] = .error (.panic "Leaf should not be blank"))
      | _, _ => false) = true := by decide +kernel
  split at hrun
  · rename_i c1 c2 k o h1 h2
    simp only [Bool.and_eq_true, decide_eq_true_eq, List.all_eq_true] at hrun
    obtain ⟨⟨⟨⟨a, b⟩, c⟩, d⟩, e⟩ := hrun
    refine ⟨c1, c2, k, o, h1, h2, a, ?_, c, ?_, e⟩
    · intro l hl x hx
      have := b l hl
      rw [hx] at this
      simpa using this
    · split at d
      · rename_i sks k' h
        exact ⟨sks, by rw [h]; simp at d; rw [d]⟩
      · simp at d
  · simp at hrun

/-- **C72 fails.** Alice removes Carol, who has the last position, while Bob adds Dave. On replay Dave is put at Carol's old
position, and the repair then blanks that position because of Carol's removal: Dave is still reported as a member but has no leaf
and no key in the tree. Alice's next update succeeds; Bob can follow it and Dave cannot, for good. -/
theorem C72_fails : ∃ (H : SOp → Nat) (c c1 c2 : Cgka) (k : Sk) (o : SOp), Function.Injective H ∧
    -- both operations are what the library produced
    (Sample.alice3.remove H (Sample.sign 4) 3).2 = .ok (some Sample.o4) ∧
    (Sample.bob3.add H (Sample.sign 6) 4 ⟨44⟩).2 = .ok (some Sample.o6) ∧
    c = ((Sample.alice3.remove H (Sample.sign 4) 3).1.mergeConcurrentOperation H Sample.o6).1 ∧ ReachOk H c ∧
    c.replayIfNeeded H = .ok c1 ∧ c1.tree.containsId 4 = true ∧ (∀ i l, LeafAt c1.tree i l → l.id ≠ 4) ∧
    c.update H (Sample.sign 9) Sample.gen 20 14 = (c2, .ok (k, o)) ∧ c2.tree.containsId 4 = true ∧
    (∃ sks, c2.tree.decryptTreeSecret 2 [(⟨22⟩, 22)] = .ok (sks, k)) ∧
    c2.tree.decryptTreeSecret 4 [(⟨44⟩, 44)] = .error (.panic "Leaf should not be blank") := by
  obtain ⟨c1, c2, k, o, h1, h2, h3, h4, h5, h6, h7⟩ := aliceDave_run
  refine ⟨Sample.H, aliceDave, c1, c2, k, o, Sample.H_inj, by decide +kernel, by decide +kernel, rfl,
    .call (cmd := .receive Sample.o6) (.call Sample.alice3_ok (Sample.sign_good 4)) trivial, h1, h3, ?_, h2, h5, h6, h7⟩
  intro i l hl
  exact h4 _ (List.mem_of_getElem? hl) l rfl

end Verif.Cgka.BatchProps
