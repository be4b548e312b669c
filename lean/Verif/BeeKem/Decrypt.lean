import Verif.BeeKem.Apply

/-! # Helper lemmas: `decrypt_tree_secret` in a good tree -/

set_option linter.dupNamespace false

namespace Verif.BeeKem

open Verif.TreeMath

theorem derive_comm (a b : Sk) : deriveSymmetricKey a ⟨b⟩ = deriveSymmetricKey b ⟨a⟩ := by
  simp [deriveSymmetricKey, Nat.min_comm, Nat.max_comm]

namespace BeeKem

/-- The climb over skipped parents stops below the first ancestor that is not skipped. -/
theorem skipLoop_ok {t : BeeKem} {h i : Nat} (hs : Shape t h) (hi : i < 2 ^ h)
    (hroot : t.skipD h 0 = false) (fuel : Nat) : ∀ k, k < h → h - k ≤ fuel →
    ∃ p, k ≤ p ∧ p < h ∧ t.skipLoop fuel (nd k (i / 2 ^ k)) = .ok (nd p (i / 2 ^ p)) ∧
      t.skipD (p + 1) (i / 2 ^ (p + 1)) = false ∧
      ∀ j, k < j → j ≤ p → t.skipD j (i / 2 ^ j) = true := by
  induction fuel with
  | zero => intro k hk hf; omega
  | succ fuel ih =>
    intro k hk hf
    have hr : InR h (k + 1) (i / 2 ^ (k + 1)) := inR_anc hi hk
    have hpar : TreeNodeIndex.inner (parent (nd k (i / 2 ^ k))) = nd (k + 1) (i / 2 ^ (k + 1)) := by
      rw [parent_nd, ← div_pow_succ]; rfl
    unfold skipLoop
    rw [hpar, shouldSkip_ok hs hr]
    cases hsk : t.skipD (k + 1) (i / 2 ^ (k + 1)) with
    | false =>
      exact ⟨k, Nat.le_refl _, hk, rfl, hsk, by intro j h1 h2; omega⟩
    | true =>
      have hkh : k + 1 < h := by
        by_contra hc
        have : k + 1 = h := by omega
        rw [this, Nat.div_eq_of_lt hi, hroot] at hsk
        simp at hsk
      obtain ⟨p, h1, h2, h3, h4, h5⟩ := ih (k + 1) hkh (by omega)
      refine ⟨p, by omega, h2, h3, h4, ?_⟩
      intro j hj1 hj2
      by_cases he : j = k + 1
      · rw [he]; exact hsk
      · exact h5 j (by omega) hj2

/-- What the decryption loop knows at level `k` above leaf `i`. -/
structure DecInv (t : BeeKem) (i k : Nat) (s : DecState) : Prop where
  idx : s.childIdx = nd k (i / 2 ^ k)
  skip : t.skipD k (i / 2 ^ k) = false
  key : ∃ a, s.childKey = .share ⟨a⟩ ∧ t.keyD k (i / 2 ^ k) = some (.share ⟨a⟩) ∧
    AMap.get s.sks ⟨a⟩ = some a ∧ (k ≠ 0 → s.last = some a)
  cons : Consistent s.sks
  seen : ∃ r, s.seen.reverse = nd k (i / 2 ^ k) :: r

theorem decryptStep_ok {t : BeeKem} {h i k : Nat} (hs : Shape t h) (hg : Good t) (hi : i < 2 ^ h)
    (hroot : t.skipD h 0 = false) (hk : k < h) {s : DecState} (D : DecInv t i k s) :
    ∃ s' p, k ≤ p ∧ p < h ∧ t.decryptStep s = .ok s' ∧ DecInv t i (p + 1) s' ∧
      (∀ pk sk, AMap.get s.sks pk = some sk → AMap.get s'.sks pk = some sk) := by
  obtain ⟨p, hkp, hph, hloop, hskp, hbetween⟩ :=
    skipLoop_ok hs hi hroot (t.treeSize + 1) k hk (by have := size_gt hs; omega)
  obtain ⟨a, hck, hkey, hsk, _⟩ := D.key
  obtain ⟨r, hseen⟩ := D.seen
  obtain ⟨v, c, e, sN, hst, hvpk, hve, hc, hkc, hskc, ⟨pp, hown⟩, hres⟩ := hg.node p _ hskp
  have hpin : nodeInner p (i / 2 ^ (p + 1)) < 2 ^ h - 1 := inR_inner.1 (inR_anc hi hph)
  -- the entry this member opens, under its own index
  have hentry : ∃ q, AMap.get v.sk (nd k (i / 2 ^ k)) = some (encryptSecret sN e ⟨q⟩) ∧ (e = a ∨ q = a) := by
    have hcc : c = i / 2 ^ p ∨ c = sib (i / 2 ^ p) := eq_or_sib (by rw [hc, div_pow_succ])
    rcases hcc with rfl | rfl
    · -- we are on the encrypting side: the encrypting child is the next node itself
      have hpk : p = k := by
        by_contra hne'
        have := hbetween p (by omega) (Nat.le_refl _)
        rw [hskc] at this
        simp at this
      subst hpk
      rw [hkey] at hkc
      simp only [Option.some.injEq, NodeKey.share.injEq, Pk.mk.injEq] at hkc
      exact ⟨pp.of, hown, Or.inl hkc.symm⟩
    · rw [sib_sib] at hres
      have hmem : (k, i / 2 ^ k) ∈ t.resList p (i / 2 ^ p) := by
        rw [mem_resList]
        refine ⟨hkp, ?_, D.skip, ?_⟩
        · rw [div_div_pow]; congr 2; omega
        · intro j h1 h2
          rw [div_div_pow, show k + (j - k) = j by omega]
          exact hbetween j h1 h2
      obtain ⟨kr, hkr, hget⟩ := hres _ hmem
      simp only at hkr hget
      rw [hkey] at hkr
      simp only [Option.some.injEq, NodeKey.share.injEq, Pk.mk.injEq] at hkr
      exact ⟨kr, hget, Or.inr hkr.symm⟩
  obtain ⟨q, hq, hqa⟩ := hentry
  have hlook : lookupIdx v.sk s.seen.reverse = some (nd k (i / 2 ^ k)) := by
    rw [hseen]
    simp [lookupIdx, AMap.contains, hq]
  have hdec : (⟨[v]⟩ : SecretStore).decryptSecret s.childKey s.sks s.seen = .ok sN := by
    unfold SecretStore.decryptSecret
    simp only [SecretStore.hasConflict, List.length_singleton, Nat.lt_irrefl, decide_false,
      Bool.false_eq_true, if_false, gt_iff_lt]
    unfold SecretStoreVersion.decryptSecret
    rw [hlook]
    simp only [hq, hck, NodeKey.containsKey, hve, Pk.mk.injEq]
    by_cases hea : e = a
    · subst hea
      simp [hsk, tryEncrypterDecrypt, tryDecrypt, encryptSecret]
    · have hqa' : q = a := by
        rcases hqa with h1 | h1
        · exact absurd h1 hea
        · exact h1
      subst hqa'
      simp only [hea, decide_false, Bool.false_eq_true, if_false]
      simp [tryDecryptEncryption, encryptSecret, hsk, tryDecrypt, derive_comm]
  have hnk : (⟨[v]⟩ : SecretStore).nodeKey = .ok (.share ⟨sN⟩) := by
    simp [SecretStore.nodeKey, NodeKey.ofSlice, hvpk]
  have hkeyp : t.keyD (p + 1) (i / 2 ^ (p + 1)) = some (.share ⟨sN⟩) := by
    simp only [keyD, hst, hnk]; rfl
  have hpar : parent (nd p (i / 2 ^ p)) = nodeInner p (i / 2 ^ (p + 1)) := by
    rw [parent_nd, ← div_pow_succ]
  -- the key map after the step
  obtain ⟨m, hm1, hm2, hm3, hm4⟩ : ∃ m, t.maybeDecryptParentKey (nd p (i / 2 ^ p)) s.childKey s.seen s.sks =
      .ok (m, some sN) ∧ Consistent m ∧ AMap.get m ⟨sN⟩ = some sN ∧
      (∀ pk sk, AMap.get s.sks pk = some sk → AMap.get m pk = some sk) := by
    cases hgs : AMap.get s.sks ⟨sN⟩ with
    | some x =>
      have hx := D.cons _ _ hgs
      simp only [Pk.mk.injEq] at hx
      subst hx
      refine ⟨s.sks, ?_, D.cons, hgs, fun _ _ h => h⟩
      unfold maybeDecryptParentKey
      rw [hpar, innerNode_ok hs hpin, hst]
      simp [bind, Except.bind, hnk, hgs, pure, Except.pure]
    | none =>
      refine ⟨AMap.insert s.sks ⟨sN⟩ sN, ?_, D.cons.insert sN, AMap.get_insert_self _ _ _, ?_⟩
      · unfold maybeDecryptParentKey
        rw [hpar, innerNode_ok hs hpin, hst]
        simp [bind, Except.bind, hnk, hgs, pure, Except.pure, hdec]
      · intro pk sk h1
        exact D.cons.get_insert h1
  refine ⟨{ sks := m, childIdx := nd (p + 1) (i / 2 ^ (p + 1)), childKey := .share ⟨sN⟩, seen := s.seen ++ [nd (p + 1) (i / 2 ^ (p + 1))], last := some sN }, p, hkp, hph, ?_, ?_, hm4⟩
  · unfold decryptStep
    rw [D.idx, hloop]
    simp only [bind, Except.bind]
    rw [hm1]
    simp only [hpar]
    have e1 : TreeNodeIndex.inner (nodeInner p (i / 2 ^ (p + 1))) = nd (p + 1) (i / 2 ^ (p + 1)) := rfl
    rw [e1, nodeKeyForIndex_ok hs (inR_anc hi hph) hkeyp]
    rfl
  · exact {
      idx := rfl
      skip := hskp
      key := ⟨sN, rfl, hkeyp, hm3, fun _ => rfl⟩
      cons := hm2
      seen := ⟨s.seen.reverse, by simp⟩ }

theorem decryptLoop_ok {t : BeeKem} {h i : Nat} (hs : Shape t h) (hg : Good t) (hi : i < 2 ^ h)
    (hroot : t.skipD h 0 = false) (fuel : Nat) : ∀ k (s : DecState), k ≤ h → DecInv t i k s → h - k < fuel →
    ∃ s', t.decryptLoop fuel s = .ok s' ∧ DecInv t i h s' ∧
      (∀ pk sk, AMap.get s.sks pk = some sk → AMap.get s'.sks pk = some sk) := by
  induction fuel with
  | zero => intro k s hk D hf; omega
  | succ fuel ih =>
    intro k s hk D hf
    unfold decryptLoop
    by_cases hkh : k = h
    · subst hkh
      refine ⟨s, ?_, D, fun _ _ h => h⟩
      rw [if_pos]
      rw [D.idx, Nat.div_eq_of_lt hi]
      obtain ⟨k', rfl⟩ : ∃ k', k = k' + 1 := ⟨k - 1, by have := hs.pos; omega⟩
      change t.isRoot (.inner (nodeInner k' 0)) = true
      rw [isRoot_inner hs]
      simp
    · obtain ⟨s1, p, h1, h2, h3, h4, h5⟩ := decryptStep_ok hs hg hi hroot (by omega) D
      obtain ⟨s', h6, h7, h8⟩ := ih (p + 1) s1 (by omega) h4 (by omega)
      refine ⟨s', ?_, h7, fun pk sk hx => h8 pk sk (h5 pk sk hx)⟩
      have hnr : t.isRoot s.childIdx = false := by
        rw [D.idx]
        cases k with
        | zero => exact isRoot_leaf hs
        | succ k =>
          change t.isRoot (.inner (nodeInner k _)) = false
          rw [isRoot_inner hs]
          simp; omega
      rw [hnr]
      simp only [Bool.false_eq_true, if_false, h3, bind, Except.bind]
      exact h6

theorem hasRootKey_ok {t : BeeKem} {h : Nat} (hs : Shape t h) : t.hasRootKey = .ok (!t.skipD h 0) := by
  obtain ⟨h', rfl⟩ : ∃ h', h = h' + 1 := ⟨h - 1, by have := hs.pos; omega⟩
  unfold hasRootKey
  rw [hs.size, root_eq]
  simp only
  rw [innerNode_ok hs (nodeInner_lt.2 ⟨Nat.le_refl _, by simp⟩)]
  cases hx : t.innerD (nodeInner h' 0) <;> simp [skipD, hx, bind, Except.bind, pure, Except.pure]

/-- In a good tree with a root key, every member holding its leaf secret obtains the root secret. -/
theorem decryptTreeSecret_ok {t : BeeKem} {h : Nat} (w : WInv t h) (hg : Good t)
    (hroot : t.skipD h 0 = false) {id : MemberId} {i : Nat} (hid : AMap.get t.idToLeafIdx id = some i)
    {l : LeafNode} (hl : t.leafD i = some l) {a : Sk} (ha : l.pk = .share ⟨a⟩) {sks : ShareKeyMap}
    (hc : Consistent sks) (hsk : AMap.get sks ⟨a⟩ = some a) :
    ∃ sks' r, t.decryptTreeSecret id sks = .ok (sks', r) ∧ t.keyD h 0 = some (.share ⟨r⟩) ∧
      Consistent sks' ∧ (∀ pk sk, AMap.get sks pk = some sk → AMap.get sks' pk = some sk) ∧
      AMap.get sks' ⟨r⟩ = some r := by
  have hi := w.lt hid
  have D : DecInv t i 0 { sks, childIdx := .leaf i, childKey := l.pk, seen := [.leaf i], last := none } :=
    { idx := by simp [nd]
      skip := by simp [skipD, hl]
      key := ⟨a, ha, by simp [keyD, hl, ha], hsk, by simp⟩
      cons := hc
      seen := ⟨[], by simp [nd]⟩ }
  obtain ⟨s', h1, h2, h3⟩ := decryptLoop_ok w.shape hg hi hroot (t.treeSize + 1) 0 _ (Nat.zero_le _) D
    (by have := size_gt w.shape; omega)
  obtain ⟨r, _, hr2, hr3, hr4⟩ := h2.key
  rw [Nat.div_eq_of_lt hi] at hr2
  refine ⟨s'.sks, r, ?_, hr2, h2.cons, h3, hr3⟩
  unfold decryptTreeSecret leafIndexForId
  simp only [hid]
  simp only [hasRootKey_ok w.shape, hroot, leaf_ok w.shape hi, hl, h1, bind, Except.bind, pure,
    Except.pure, Bool.not_false, Bool.not_true, Bool.false_eq_true, if_false,
    hr4 (by have := w.shape.pos; omega)]

end BeeKem

end Verif.BeeKem
