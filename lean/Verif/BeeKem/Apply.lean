import Verif.BeeKem.Inv

/-! # Helper lemmas: `encrypt_path` and `apply_path` preserve the invariants and agree -/

set_option linter.dupNamespace false

namespace Verif.BeeKem

open Verif.TreeMath

namespace BeeKem

theorem div_eq_path {i l k m : Nat} (h1 : l + 1 ≤ k) (h2 : i / 2 ^ (l + 1) / 2 ^ (k - (l + 1)) = m) :
    i / 2 ^ k = m := by
  rw [div_div_pow, show l + 1 + (k - (l + 1)) = k by omega] at h2
  exact h2

/-- The subtree at `(k, m)` is untouched by an update at leaf `i` unless it contains leaf `i`. -/
theorem EncRes.sameBelow {g : Gen} {t : BeeKem} {s' : EncState} {h i : Nat} (hs : Shape t h)
    (hi : i < 2 ^ h) {x : Option LeafNode} {s : EncState}
    (hst : s.tree = { t with leaves := t.leaves.set i x })
    {newp : List (Nat × SecretStore)} {ν : Nat → Nat} (R : EncRes g s s' h 0 i newp ν) {k m : Nat}
    (hm : i / 2 ^ k ≠ m) : SameBelow t s'.tree k m := by
  intro k' m' h1 h2
  cases k' with
  | zero =>
    change t.leafD m' = s'.tree.leafD m'
    have : s'.tree.leafD m' = s.tree.leafD m' := by unfold leafD; rw [R.leaves]
    rw [this, hst, leafD_set hs hi, if_neg]
    intro he
    subst he
    exact hm h2
  | succ k' =>
    change t.innerD _ = s'.tree.innerD _
    rw [R.other, hst]
    · rfl
    · rw [above_zero, mem_path_nodeInner]
      rintro ⟨_, rfl⟩
      exact hm (div_eq_path h1 h2)

theorem encryptPath_inv (g : Gen) (c : Nat) {t : BeeKem} {h i : Nat} (w : SInv t h) (hg : Good t)
    {id : MemberId} (hid : AMap.get t.idToLeafIdx id = some i) {sk : Sk} {sks : ShareKeyMap}
    {s' : EncState} {newp : List (Nat × SecretStore)} {ν : Nat → Nat} {rem : List Pk}
    (R : EncRes g { tree := { t with leaves := t.leaves.set i (some ⟨id, .share ⟨sk⟩⟩) }, sks, rng := c, childIdx := .leaf i, childPk := ⟨sk⟩, childSk := sk, path := [], removed := rem }
        s' h 0 i newp ν) :
    SInv s'.tree h ∧ Good s'.tree ∧
      (∀ j, s'.tree.leafD j = if j = i then some ⟨id, .share ⟨sk⟩⟩ else t.leafD j) := by
  have hi := w.lt hid
  have hL : ∀ j, s'.tree.leafD j = if j = i then some ⟨id, .share ⟨sk⟩⟩ else t.leafD j := by
    intro j
    have : s'.tree.leafD j = leafD { t with leaves := t.leaves.set i (some ⟨id, .share ⟨sk⟩⟩) } j := by
      unfold leafD; rw [R.leaves]
    rw [this, leafD_set w.shape hi]
  obtain ⟨l0, hl0, hl0id⟩ := w.ids id i hid
  have hnext : s'.tree.nextLeafIdx = t.nextLeafIdx := R.next
  have hids : s'.tree.idToLeafIdx = t.idToLeafIdx := R.ids
  refine ⟨⟨⟨R.shape, by rw [hnext]; exact w.next, ?_, by rw [hids]; exact w.wf, ?_, R.single.inner⟩, ?_⟩, ⟨R.single, ?_⟩, hL⟩
  · intro j hj
    rw [hL, if_neg]
    · exact w.tail j (by omega)
    · intro he
      have := w.tail j (by omega)
      rw [he, hl0] at this
      simp at this
  · intro id' i' hg'
    rw [hids] at hg'
    obtain ⟨l', hl', hlid'⟩ := w.ids id' i' hg'
    by_cases he : i' = i
    · subst he
      rw [hl0] at hl'
      simp only [Option.some.injEq] at hl'
      subst hl'
      refine ⟨_, by rw [hL, if_pos rfl], ?_⟩
      simp only
      rw [← hlid', hl0id]
    · exact ⟨l', by rw [hL, if_neg he, hl'], hlid'⟩
  · intro j l hj
    rw [hids]
    rw [hL] at hj
    split at hj
    · rename_i he
      simp only [Option.some.injEq] at hj
      subst hj
      rw [he]; exact hid
    · exact w.back j l hj
  · intro k m hne
    by_cases hm : i / 2 ^ (k + 1) = m
    · rw [← hm]
      exact R.good k (Nat.zero_le _) (nodeInner_lt.1 (innerD_lt R.shape (inner_of_skip hne))).1
    · have hsb : SameBelow t s'.tree (k + 1) m := R.sameBelow w.shape hi rfl hm
      exact (hg.node k m (by rw [hsb.self.skip]; exact hne)).congr hsb

/-! ## `apply_path` -/

theorem applyPathLoop_ok (removed : List Pk) (ps : List (Nat × SecretStore)) :
    ∀ {t : BeeKem} {h : Nat}, Shape t h → (∀ q ∈ ps, q.1 < 2 ^ h - 1) →
    ∃ t', applyPathLoop removed t ps = .ok t' ∧ Shape t' h ∧ t'.leaves = t.leaves ∧
      t'.nextLeafIdx = t.nextLeafIdx ∧ t'.idToLeafIdx = t.idToLeafIdx ∧
      (∀ j, j ∉ ps.map (·.1) → t'.innerD j = t.innerD j) ∧
      ((ps.map (·.1)).Nodup → ∀ q ∈ ps, t'.innerD q.1 =
        some (match t.innerD q.1 with
          | none => q.2
          | some cur => cur.merge q.2 removed)) ∧
      ((∀ q ∈ ps, q.2.versions ≠ []) → (∀ j s, t.innerD j = some s → s.versions ≠ []) →
        ∀ j s, t'.innerD j = some s → s.versions ≠ []) := by
  induction ps with
  | nil =>
    intro t h hs _
    exact ⟨t, rfl, hs, rfl, rfl, rfl, fun _ _ => rfl, by simp, fun _ h => h⟩
  | cons q ps ih =>
    intro t h hs hq
    have hq1 := hq q (by simp)
    obtain ⟨st, hst⟩ : ∃ st, st = (match t.innerD q.1 with
          | none => q.2
          | some cur => cur.merge q.2 removed) := ⟨_, rfl⟩
    have hs1 := shape_setInner hs q.1 (some st)
    have hI : ∀ j, innerD { t with innerNodes := t.innerNodes.set q.1 (some st) } j =
        if j = q.1 then some st else t.innerD j := innerD_set hs hq1 _
    obtain ⟨t', h1, h2, h3, h4, h5, h6, h7, h8⟩ := ih hs1 (fun x hx => hq x (List.mem_cons_of_mem _ hx))
    refine ⟨t', ?_, h2, h3, h4, h5, ?_, ?_, ?_⟩
    · unfold applyPathLoop
      rw [innerNode_ok hs hq1]
      rw [← h1]
      cases hc : t.innerD q.1 with
      | none =>
        simp only [hc] at hst
        subst hst
        simp only [bind, Except.bind, insertInnerNodeAt_ok hs hq1]
      | some cur =>
        simp only [hc] at hst
        subst hst
        simp only [bind, Except.bind, insertInnerNodeAt_ok hs hq1]
    · intro j hj
      simp only [List.map_cons, List.mem_cons, not_or] at hj
      rw [h6 j hj.2, hI, if_neg hj.1]
    · intro hnd x hx
      rw [List.map_cons, List.nodup_cons] at hnd
      rcases List.mem_cons.1 hx with rfl | hx
      · rw [h6 _ hnd.1, hI, if_pos rfl, hst]
      · have hne : x.1 ≠ q.1 := by
          intro he
          exact hnd.1 (by rw [← he]; exact List.mem_map_of_mem hx)
        rw [h7 hnd.2 x hx, hI, if_neg hne]
    · intro hv hv2 j s hj
      refine h8 (fun x hx => hv x (List.mem_cons_of_mem _ hx)) ?_ j s hj
      intro j' s' hj'
      rw [hI] at hj'
      split at hj'
      · simp only [Option.some.injEq] at hj'
        subst hj'
        have hv1 := hv q (by simp)
        rw [hst]
        split
        · exact hv1
        · unfold SecretStore.merge
          simp [hv1]
      · exact hv2 j' s' hj'

theorem ofSlice_ok {l : List Pk} (h : l ≠ []) : ∃ nk, NodeKey.ofSlice l = .ok nk ∧ nk.keys = l := by
  match l, h with
  | [k], _ => exact ⟨_, rfl, rfl⟩
  | a :: b :: more, _ => exact ⟨_, rfl, rfl⟩

theorem NodeKey.keys_ne (k : NodeKey) : k.keys ≠ [] := by cases k <;> simp [NodeKey.keys]

/-- `NodeKey::merge` never hits its `unreachable!`. -/
theorem merge_ok (a b : NodeKey) (removed : List Pk) : ∃ nk, a.merge b removed = .ok nk := by
  unfold NodeKey.merge
  have hne : ∀ l : List Pk, sortKeys (b.keys ++ l) ≠ [] := by
    intro l hc
    have hlen := length_isort (le := fun (a b : Pk) => decide (a.of ≤ b.of)) (b.keys ++ l)
    unfold sortKeys at hc
    rw [hc] at hlen
    simp only [List.length_nil, List.length_append] at hlen
    have := NodeKey.keys_ne b
    have := List.length_pos_iff.2 this
    omega
  cases a with
  | share key =>
    simp only
    split
    · exact ⟨_, rfl⟩
    · obtain ⟨nk, h, _⟩ := ofSlice_ok (hne [key])
      exact ⟨nk, h⟩
  | conflict x y more =>
    obtain ⟨nk, h, _⟩ := ofSlice_ok (hne _)
    exact ⟨nk, h⟩

theorem WInv.setLeaf {t : BeeKem} {h i : Nat} (w : WInv t h) {id : MemberId}
    (hid : AMap.get t.idToLeafIdx id = some i) (pk : NodeKey) :
    WInv { t with leaves := t.leaves.set i (some ⟨id, pk⟩) } h := by
  have hi := w.lt hid
  have hL : ∀ j, leafD { t with leaves := t.leaves.set i (some ⟨id, pk⟩) } j =
      if j = i then some ⟨id, pk⟩ else t.leafD j := leafD_set w.shape hi _
  obtain ⟨l0, hl0, hl0id⟩ := w.ids id i hid
  refine ⟨shape_setLeaf w.shape _ _, w.next, ?_, w.wf, ?_, w.vers⟩
  · intro j hj
    rw [hL, if_neg, w.tail j hj]
    intro he
    have h0 := w.tail j hj
    rw [he, hl0] at h0
    simp at h0
  · intro id' i' hg'
    obtain ⟨l', hl', hlid'⟩ := w.ids id' i' hg'
    by_cases he : i' = i
    · subst he
      rw [hl0] at hl'
      simp only [Option.some.injEq] at hl'
      subst hl'
      exact ⟨_, by rw [hL, if_pos rfl], by simp only; rw [← hlid', hl0id]⟩
    · exact ⟨l', by rw [hL, if_neg he, hl'], hlid'⟩

theorem SInv.setLeaf {t : BeeKem} {h i : Nat} (w : SInv t h) {id : MemberId}
    (hid : AMap.get t.idToLeafIdx id = some i) (pk : NodeKey) :
    SInv { t with leaves := t.leaves.set i (some ⟨id, pk⟩) } h := by
  have hi := w.lt hid
  have hL : ∀ j, leafD { t with leaves := t.leaves.set i (some ⟨id, pk⟩) } j =
      if j = i then some ⟨id, pk⟩ else t.leafD j := leafD_set w.shape hi _
  refine ⟨w.toWInv.setLeaf hid pk, ?_⟩
  intro j l hj
  rw [hL] at hj
  split at hj
  · rename_i he
    simp only [Option.some.injEq] at hj
    subst hj
    rw [he]; exact hid
  · exact w.back j l hj

/-- Changing inner nodes only keeps the bookkeeping invariants. -/
theorem WInv.ofInner {t t' : BeeKem} {h : Nat} (w : WInv t h) (hs : Shape t' h)
    (hl : t'.leaves = t.leaves) (hn : t'.nextLeafIdx = t.nextLeafIdx)
    (hid : t'.idToLeafIdx = t.idToLeafIdx)
    (hv : ∀ j s, t'.innerD j = some s → s.versions ≠ []) : WInv t' h := by
  have hL : ∀ j, t'.leafD j = t.leafD j := by intro j; unfold leafD; rw [hl]
  refine ⟨hs, by rw [hn]; exact w.next, ?_, by rw [hid]; exact w.wf, ?_, hv⟩
  · intro j hj; rw [hL]; exact w.tail j (by omega)
  · intro id i hg
    rw [hid] at hg
    obtain ⟨l, h1, h2⟩ := w.ids id i hg
    exact ⟨l, by rw [hL]; exact h1, h2⟩

theorem SInv.ofInner {t t' : BeeKem} {h : Nat} (w : SInv t h) (w' : WInv t' h)
    (hl : t'.leaves = t.leaves) (hid : t'.idToLeafIdx = t.idToLeafIdx) : SInv t' h := by
  refine ⟨w', ?_⟩
  intro i l hg
  rw [hid]
  apply w.back
  unfold leafD at *
  rw [← hl]; exact hg

/-- `apply_path` with indices inside the tree and non-empty stores: it succeeds, keeps the
bookkeeping, and changes at most the key of the updater's own leaf among the leaves. -/
theorem applyPath_ok {t : BeeKem} {h : Nat} (w : WInv t h) (pc : PathChange)
    (hleaf : pc.leafIdx < 2 ^ h) (hidx : ∀ q ∈ pc.path, q.1 < 2 ^ h - 1)
    (hst : ∀ q ∈ pc.path, q.2.versions ≠ []) :
    ∃ t', t.applyPath pc = .ok t' ∧ WInv t' h ∧ t'.idToLeafIdx = t.idToLeafIdx ∧
      t'.nextLeafIdx = t.nextLeafIdx ∧
      (∀ j, t'.leafD j = t.leafD j ∨
        (AMap.get t.idToLeafIdx pc.leafId = some j ∧ ∃ pk, t'.leafD j = some ⟨pc.leafId, pk⟩)) ∧
      (SInv t h → SInv t' h) := by
  unfold applyPath containsId AMap.contains
  cases hg : AMap.get t.idToLeafIdx pc.leafId with
  | none =>
    exact ⟨t, by simp, w, rfl, rfl, fun _ => Or.inl rfl, fun h => h⟩
  | some i =>
    have hi := w.lt hg
    obtain ⟨l0, hl0, _⟩ := w.ids _ i hg
    obtain ⟨nk, hnk⟩ := merge_ok l0.pk pc.leafPk pc.removedKeys
    have w1 := w.setLeaf hg nk
    have hval : t.isValidPath pc = .ok (decide (pc.path.length = h) && decide (i = pc.leafIdx)) := by
      unfold isValidPath leafIndexForId
      simp only [hg, bind, Except.bind]
      rw [directPathRes_ok w.shape hleaf]
      simp [pure, Except.pure, path_length]
    have hL : ∀ j, leafD { t with leaves := t.leaves.set i (some ⟨pc.leafId, nk⟩) } j =
      if j = i then some ⟨pc.leafId, nk⟩ else t.leafD j := leafD_set w.shape hi _
    have hleaves : ∀ t' : BeeKem, t'.leaves = t.leaves.set i (some ⟨pc.leafId, nk⟩) →
        ∀ j, t'.leafD j = t.leafD j ∨ (some i = some j ∧ ∃ pk, t'.leafD j = some ⟨pc.leafId, pk⟩) := by
      intro t' he j
      have : t'.leafD j = leafD { t with leaves := t.leaves.set i (some ⟨pc.leafId, nk⟩) } j := by
        unfold leafD; rw [he]
      rw [this, hL]
      split
      · rename_i he
        exact Or.inr ⟨by rw [he], nk, rfl⟩
      · exact Or.inl rfl
    simp only [Option.isSome_some, if_true, leafIndexForId, hg, bind, Except.bind, hval, leaf_ok w.shape hi,
      hl0, hnk, insertLeafAt_ok w.shape hi]
    cases hb : (decide (pc.path.length = h) && decide (i = pc.leafIdx)) with
    | true =>
      simp only [if_true]
      obtain ⟨t', h1, h2, h3, h4, h5, _, _, h8⟩ := applyPathLoop_ok pc.removedKeys pc.path w1.shape hidx
      have w2 := w1.ofInner h2 h3 h4 h5 (h8 hst w1.vers)
      exact ⟨t', h1, w2, h5, h4, hleaves t' h3, fun sv => (sv.setLeaf hg nk).ofInner w2 h3 h5⟩
    | false =>
      simp only [Bool.false_eq_true, if_false]
      rw [blankPath_ok w1.shape hi]
      have w2 : WInv { t with leaves := t.leaves.set i (some ⟨pc.leafId, nk⟩), innerNodes := blankAll t.innerNodes (path h i) } h := by
        refine w1.ofInner (shape_blank w1.shape _) rfl rfl rfl ?_
        intro j s hj
        have : innerD { t with leaves := t.leaves.set i (some ⟨pc.leafId, nk⟩), innerNodes := blankAll t.innerNodes (path h i) } j =
          if j ∈ path h i then none else t.innerD j := blankAll_get _ _ _
        rw [this] at hj
        split at hj
        · simp at hj
        · exact w.vers j s hj
      exact ⟨_, rfl, w2, rfl, rfl, hleaves _ rfl, fun sv => (sv.setLeaf hg nk).ofInner w2 rfl rfl⟩

theorem list_ext_join {α : Type} {a b : List (Option α)} (hl : a.length = b.length)
    (h : ∀ j : Nat, (a[j]?).join = (b[j]?).join) : a = b := by
  apply List.ext_getElem hl
  intro j h1 h2
  have := h j
  simpa [h1, h2] using this

theorem above_nodup (h i : Nat) : (path h i).Nodup := by
  unfold path
  rw [List.nodup_iff_pairwise_ne, List.pairwise_map]
  apply (List.nodup_range (n := h)).imp
  intro a b hab he
  exact hab (nodeInner_inj he).1

/-- Installing the path change produced by `encrypt_path` on the tree it was made from gives exactly
the updater's tree. -/
theorem applyPath_encrypt {g : Gen} {c : Nat} {t : BeeKem} {h i : Nat} (w : SInv t h) (hg : Good t)
    {id : MemberId} (hid : AMap.get t.idToLeafIdx id = some i) {sk : Sk} {sks : ShareKeyMap}
    {l : LeafNode} (hl : t.leafD i = some l)
    {s' : EncState} {newp : List (Nat × SecretStore)} {ν : Nat → Nat}
    (R : EncRes g { tree := { t with leaves := t.leaves.set i (some ⟨id, .share ⟨sk⟩⟩) }, sks, rng := c, childIdx := .leaf i, childPk := ⟨sk⟩, childSk := sk, path := [], removed := l.pk.keys }
        s' h 0 i newp ν) :
    t.applyPath { leafId := id, leafIdx := i, leafPk := .share ⟨sk⟩, path := newp, removedKeys := l.pk.keys ++ keysOn t (path h i) } = .ok s'.tree := by
  have hi := w.lt hid
  have hidx : newp.map (·.1) = path h i := by rw [R.pathIdx, above_zero]
  have hlen : newp.length = h := by
    have := congrArg List.length hidx
    simpa [path_length] using this
  have hval : t.isValidPath { leafId := id, leafIdx := i, leafPk := .share ⟨sk⟩, path := newp, removedKeys := l.pk.keys ++ keysOn t (path h i) } = .ok true := by
    unfold isValidPath leafIndexForId
    simp only [hid, bind, Except.bind]
    rw [directPathRes_ok w.shape hi]
    simp [pure, Except.pure, path_length, hlen]
  obtain ⟨k0, hk0⟩ := hg.single.leaf i l hl
  have hmerge : l.pk.merge (.share ⟨sk⟩) (l.pk.keys ++ keysOn t (path h i)) = .ok (.share ⟨sk⟩) := by
    rw [hk0]
    simp [NodeKey.merge, NodeKey.keys]
  have hs1 := shape_setLeaf w.shape i (some ⟨id, .share ⟨sk⟩⟩)
  have hin : ∀ q ∈ newp, q.1 ∈ path h i := by
    intro q hq; rw [← hidx]; exact List.mem_map_of_mem hq
  obtain ⟨t', h1, h2, h3, h4, h5, h6, h7, _⟩ := applyPathLoop_ok (l.pk.keys ++ keysOn t (path h i)) newp hs1
    (fun q hq => path_lt hi (hin q hq))
  have h7 := h7 (by rw [hidx]; exact above_nodup h i)
  have hin' : ∀ j, t'.innerD j = s'.tree.innerD j := by
    intro j
    by_cases hj : j ∈ path h i
    · have hj2 := hj
      rw [← hidx] at hj2
      obtain ⟨q, hq, rfl⟩ := List.mem_map.1 hj2
      rw [h7 q hq, R.pathVal q hq]
      congr 1
      have hI : innerD { t with leaves := t.leaves.set i (some ⟨id, .share ⟨sk⟩⟩) } q.1 = t.innerD q.1 := rfl
      rw [hI]
      cases hc : t.innerD q.1 with
      | none => rfl
      | some cur =>
        simp only [SecretStore.merge, SecretStore.removeKeysFrom]
        have : cur.versions.filter (fun v => decide (v.pk ∉ l.pk.keys ++ keysOn t (path h i))) = [] := by
          rw [List.filter_eq_nil_iff]
          intro v hv
          simp only [decide_eq_true_eq, not_not, List.mem_append]
          right
          unfold keysOn
          rw [List.mem_flatMap]
          exact ⟨q.1, hj, by rw [hc]; exact List.mem_map_of_mem hv⟩
        rw [this]
        rfl
    · rw [h6 j (by rw [hidx]; exact hj), R.other j (by rw [above_zero]; exact hj)]
  have htree : t' = s'.tree := by
    have e1 : t'.leaves = s'.tree.leaves := by rw [h3, R.leaves]
    have e2 : t'.innerNodes = s'.tree.innerNodes := by
      apply list_ext_join
      · rw [h2.inner, R.shape.inner]
      · exact hin'
    have e3 : t'.treeSize = s'.tree.treeSize := by rw [h2.size, R.shape.size]
    have e4 : t'.nextLeafIdx = s'.tree.nextLeafIdx := by rw [h4, R.next]
    have e5 : t'.idToLeafIdx = s'.tree.idToLeafIdx := by rw [h5, R.ids]
    rcases t' with ⟨a, b, c, d, e⟩
    generalize s'.tree = q at *
    rcases q with ⟨a', b', c', d', e'⟩
    simp only at e1 e2 e3 e4 e5
    rw [e1, e2, e3, e4, e5]
  unfold applyPath containsId AMap.contains
  simp only [hid, Option.isSome_some, if_true, leafIndexForId, bind, Except.bind, hval, leaf_ok w.shape hi,
      hl, hmerge, insertLeafAt_ok w.shape hi]
  rw [h1, htree]

end BeeKem

end Verif.BeeKem
