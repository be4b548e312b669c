import Verif.BeeKem.FixUp
import Verif.BeeKem.Fit
import Verif.BeeKem.Struct

/-! # Helper lemmas: additions and updates without removals, whatever they are concurrent with -/

set_option linter.dupNamespace false

namespace Verif.BeeKem

open Verif.TreeMath

namespace BeeKem

/-- State of the loop that pops leaves, started at `t0`; an identity may occupy several leaves. -/
structure PopW (t0 t : BeeKem) (h : Nat) (acc : List LeafNode) : Prop where
  shape : Shape t h
  len : acc.length + t.nextLeafIdx = t0.nextLeafIdx
  low : ∀ j, j < t.nextLeafIdx → t.leafD j = t0.leafD j
  high : ∀ j, t.nextLeafIdx ≤ j → t.leafD j = none
  ids : t.idToLeafIdx = t0.idToLeafIdx
  mem : ∀ j l, t.nextLeafIdx ≤ j → t0.leafD j = some l → l ∈ acc
  inner : ∀ j s, t.innerD j = some s → t0.innerD j = some s

theorem popLeaves_packed {t0 : BeeKem} {h b : Nat} (w : WInv t0 h)
    (hfull : ∀ j, b ≤ j → j < t0.nextLeafIdx → t0.leafD j ≠ none) (fuel : Nat) : ∀ (t : BeeKem) (added : List MemberId)
    (acc : List LeafNode), PopW t0 t h acc → b ≤ t.nextLeafIdx → t.nextLeafIdx ≤ fuel →
    (∀ a ∈ added, ∃ j l, b ≤ j ∧ j < t.nextLeafIdx ∧ t0.leafD j = some l ∧ l.id = a) →
    ∃ t' acc', popLeaves fuel t added acc = .ok (t', acc') ∧ PopW t0 t' h acc' ∧ b ≤ t'.nextLeafIdx := by
  induction fuel with
  | zero => intro t added acc p hb hf ha; exact ⟨t, acc, rfl, p, hb⟩
  | succ fuel ih =>
    intro t added acc p hb hf ha
    unfold popLeaves
    by_cases hc : (added.isEmpty || decide (t.nextLeafIdx = 0)) = true
    · rw [if_pos hc]; exact ⟨t, acc, rfl, p, hb⟩
    · rw [if_neg hc]
      rw [Bool.or_eq_true, List.isEmpty_iff, decide_eq_true_eq, not_or] at hc
      obtain ⟨hne, hn⟩ := hc
      have hlt : t.nextLeafIdx - 1 < 2 ^ h := by have := w.next; have := p.len; omega
      have hbn : b ≤ t.nextLeafIdx - 1 := by
        obtain ⟨a, ha'⟩ := List.exists_mem_of_ne_nil _ hne
        obtain ⟨j, l, h1, h2, _⟩ := ha a ha'
        omega
      obtain ⟨t1, e1, s1, n1, id1, l1, i1⟩ := blankLeafAndPath_ok p.shape hlt
      have hlow := p.low (t.nextLeafIdx - 1) (by omega)
      have hleaf := (leaf_ok p.shape hlt).trans (congrArg Except.ok hlow)
      cases hl : t0.leafD (t.nextLeafIdx - 1) with
      | none => exact absurd hl (hfull _ hbn (by have := p.len; omega))
      | some l =>
        simp only [hleaf, hl, bind, Except.bind, pure, Except.pure, e1]
        refine ih _ (sremove added l.id) (acc ++ [l]) ?_ (by simpa using hbn) (by simp only; omega) ?_
        · refine ⟨⟨s1.pos, s1.size, s1.leaves, s1.inner⟩, ?_, ?_, ?_, ?_, ?_, ?_⟩
          · have := p.len
            simp only [List.length_append, List.length_cons, List.length_nil]
            omega
          · intro j hj
            simp only at hj
            show t1.leafD j = _
            rw [l1, if_neg (by omega)]
            exact p.low j (by omega)
          · intro j hj
            simp only at hj
            show t1.leafD j = _
            rw [l1]
            split
            · rfl
            · exact p.high j (by omega)
          · exact id1.trans p.ids
          · intro j l' hj h2
            simp only at hj
            by_cases hje : j = t.nextLeafIdx - 1
            · rw [hje, hl] at h2
              cases h2
              simp
            · exact List.mem_append_left _ (p.mem j l' (by omega) h2)
          · intro j s hj
            have : t1.innerD j = some s := hj
            rw [i1] at this
            split at this
            · simp at this
            · exact p.inner j s this
        · intro a hm
          obtain ⟨hne', hm⟩ := (mem_sremove _ _ _).1 hm
          obtain ⟨j, l', h1, h2, h3, h4⟩ := ha a hm
          refine ⟨j, l', h1, ?_, h3, h4⟩
          have : j ≠ t.nextLeafIdx - 1 := by
            rintro rfl
            rw [hl] at h3
            cases h3
            exact hne' h4.symm
          simp only
          omega

/-- State of the loop that pushes leaves; `rest` is still to come. -/
structure PushW (t : BeeKem) (h : Nat) (rest : List LeafNode) : Prop where
  shape : Shape t h
  next : t.nextLeafIdx ≤ 2 ^ h
  tail : ∀ j, t.nextLeafIdx ≤ j → t.leafD j = none
  wf : AMap.WF t.idToLeafIdx
  ids : ∀ id i, AMap.get t.idToLeafIdx id = some i → (∃ l, t.leafD i = some l ∧ l.id = id) ∨ ∃ r ∈ rest, r.id = id
  vers : ∀ j s, t.innerD j = some s → s.versions ≠ []

theorem pushAll_packed : ∀ (rest : List LeafNode) (t : BeeKem) (h : Nat), PushW t h rest →
    ∃ t' h', pushAll t rest = .ok t' ∧ h ≤ h' ∧ WInv t' h' ∧ t'.nextLeafIdx = t.nextLeafIdx + rest.length ∧
      ∀ id, AMap.get t'.idToLeafIdx id ≠ none ↔ AMap.get t.idToLeafIdx id ≠ none ∨ ∃ r ∈ rest, r.id = id := by
  intro rest
  induction rest with
  | nil =>
    intro t h p
    refine ⟨t, h, rfl, Nat.le_refl _, ⟨p.shape, p.next, p.tail, p.wf, ?_, p.vers⟩, rfl, by simp⟩
    intro id i hi
    rcases p.ids id i hi with h | ⟨r, hr, _⟩
    · exact h
    · simp at hr
  | cons r rest ih =>
    intro t h p
    obtain ⟨t1, h1, e1, s1, hh, hlt, n1, id1, l1, i1⟩ := pushLeaf_ok p.shape p.next r.id r.pk
    have p1 : PushW t1 h1 rest := by
      refine ⟨s1, by omega, ?_, by rw [id1]; exact AMap.wf_insert p.wf _ _, ?_, ?_⟩
      · intro j hj
        rw [l1, if_neg (by omega)]
        exact p.tail j (by omega)
      · intro id i hi
        rw [id1, AMap.get_insert] at hi
        split at hi
        · rename_i he
          cases hi
          exact .inl ⟨_, by rw [l1, if_pos rfl], he.symm⟩
        · rename_i he
          rcases p.ids id i hi with ⟨l, h2, h3⟩ | ⟨r', h2, h3⟩
          · refine .inl ⟨l, ?_, h3⟩
            rw [l1, if_neg, h2]
            intro hc
            rw [hc, p.tail _ (Nat.le_refl _)] at h2
            simp at h2
          · rcases List.mem_cons.1 h2 with rfl | h2
            · exact absurd h3.symm he
            · exact .inr ⟨r', h2, h3⟩
      · intro j s hj
        rw [i1] at hj
        split at hj
        · simp at hj
        · exact p.vers j s hj
    obtain ⟨t2, h2, e2, hh2, w2, n2, k2⟩ := ih t1 h1 p1
    refine ⟨t2, h2, ?_, by omega, w2, by rw [n2, n1, List.length_cons]; omega, ?_⟩
    · simp only [pushAll, e1, bind, Except.bind, e2]
    · intro id
      rw [k2, id1, AMap.get_insert]
      by_cases he : id = r.id
      · simp [he]
      · simp only [if_neg he, List.mem_cons, exists_eq_or_imp]
        constructor
        · rintro (h | h)
          · exact .inl h
          · exact .inr (.inr h)
        · rintro (h | h | h)
          · exact .inl h
          · exact absurd h.symm he
          · exact .inr h

/-- The fix-up after additions only: nothing below the first added leaf moves. -/
theorem sortLeaves_packed {t : BeeKem} {h b : Nat} (w : WInv t h) (hb : b ≤ t.nextLeafIdx)
    (hfull : ∀ j, b ≤ j → j < t.nextLeafIdx → t.leafD j ≠ none) (added : List MemberId)
    (ha : ∀ a ∈ added, ∃ j l, b ≤ j ∧ t.leafD j = some l ∧ l.id = a) :
    ∃ t' h', t.sortLeavesAndBlankPaths added [] = .ok t' ∧ h ≤ h' ∧ WInv t' h' ∧ t'.nextLeafIdx = t.nextLeafIdx ∧
      ∀ id, AMap.get t.idToLeafIdx id ≠ none → AMap.get t'.idToLeafIdx id ≠ none := by
  obtain ⟨t2, acc, e2, p2, hb2⟩ := popLeaves_packed w hfull t.nextLeafIdx t added []
    ⟨w.shape, by simp, fun _ _ => rfl, w.tail, rfl, by
      intro j l hj hc
      rw [w.tail j hj] at hc
      simp at hc, fun _ _ => id⟩ hb (Nat.le_refl _) (by
      intro a hm
      obtain ⟨j, l, h1, h2, h3⟩ := ha a hm
      exact ⟨j, l, h1, w.occ_lt (by rw [h2]; simp), h2, h3⟩)
  have hmem : ∀ r, r ∈ isort (fun a b => decide (a.id ≤ b.id)) acc ↔ r ∈ acc := fun r => mem_isort
  obtain ⟨t3, h3, e3, hh, w3, n3, k3⟩ := pushAll_packed (isort (fun a b => decide (a.id ≤ b.id)) acc) t2 h
    ⟨p2.shape, by have := p2.len; have := w.next; omega, p2.high, by rw [p2.ids]; exact w.wf, by
      intro id i hi
      rw [p2.ids] at hi
      obtain ⟨l, h1, h2⟩ := w.ids id i hi
      by_cases hlt : i < t2.nextLeafIdx
      · exact .inl ⟨l, by rw [p2.low i hlt]; exact h1, h2⟩
      · exact .inr ⟨l, (hmem l).2 (p2.mem i l (by omega) h1), h2⟩, fun j s hj => w.vers j s (p2.inner j s hj)⟩
  refine ⟨t3, h3, ?_, hh, w3, ?_, ?_⟩
  · simp only [sortLeavesAndBlankPaths, List.foldl_nil, blankRemoved, e2, bind, Except.bind, e3]
  · rw [n3, length_isort]
    have := p2.len
    omega
  · intro id hid
    rw [k3, p2.ids]
    exact .inl hid

/-- A path change made at a leaf of some tree, for a tree with at least `n` leaves in use. -/
structure Fits (pc : PathChange) (n : Nat) : Prop where
  leaf : pc.leafIdx < n
  idx : ∃ k, pc.leafIdx < 2 ^ k ∧ pc.path.map (·.1) = path k pc.leafIdx
  vers : ∀ q ∈ pc.path, q.2.versions ≠ []

theorem Fits.mono {pc : PathChange} {n n' : Nat} (h : Fits pc n) (hn : n ≤ n') : Fits pc n' :=
  ⟨Nat.lt_of_lt_of_le h.leaf hn, h.idx, h.vers⟩

/-- Installing such a path change succeeds whatever has happened to the tree. -/
theorem applyPath_fits {t : BeeKem} {h : Nat} (w : WInv t h) {pc : PathChange} (f : Fits pc t.nextLeafIdx) :
    ∃ t', t.applyPath pc = .ok t' ∧ WInv t' h ∧ t'.idToLeafIdx = t.idToLeafIdx ∧
      t'.nextLeafIdx = t.nextLeafIdx ∧
      (∀ j l, t.leafD j = some l → ∃ l', t'.leafD j = some l' ∧ l'.id = l.id) ∧
      (SInv t h → SInv t' h) := by
  have hleaf : pc.leafIdx < 2 ^ h := Nat.lt_of_lt_of_le f.leaf w.next
  obtain ⟨k, hk, hidx⟩ := f.idx
  unfold applyPath containsId AMap.contains
  cases hg : AMap.get t.idToLeafIdx pc.leafId with
  | none =>
    exact ⟨t, by simp, w, rfl, rfl, fun j l hj => ⟨l, hj, rfl⟩, fun h => h⟩
  | some i =>
    have hi := w.lt hg
    obtain ⟨l0, hl0, hl0id⟩ := w.ids _ i hg
    obtain ⟨nk, hnk⟩ := merge_ok l0.pk pc.leafPk pc.removedKeys
    have w1 := w.setLeaf hg nk
    have hval : t.isValidPath pc = .ok (decide (pc.path.length = h) && decide (i = pc.leafIdx)) := by
      unfold isValidPath leafIndexForId
      simp only [hg, bind, Except.bind]
      rw [directPathRes_ok w.shape hleaf]
      simp [pure, Except.pure, path_length]
    have hL : ∀ j, leafD { t with leaves := t.leaves.set i (some ⟨pc.leafId, nk⟩) } j =
      if j = i then some ⟨pc.leafId, nk⟩ else t.leafD j := leafD_set w.shape hi _
    have hleaves : ∀ t' : BeeKem, t'.leaves = t.leaves.set i (some ⟨pc.leafId, nk⟩) →
        ∀ j l, t.leafD j = some l → ∃ l', t'.leafD j = some l' ∧ l'.id = l.id := by
      intro t' he j l hj
      have : t'.leafD j = leafD { t with leaves := t.leaves.set i (some ⟨pc.leafId, nk⟩) } j := by
        unfold leafD; rw [he]
      rw [this, hL]
      split
      · rename_i he
        rw [he, hl0] at hj
        cases hj
        exact ⟨_, rfl, hl0id.symm⟩
      · exact ⟨l, hj, rfl⟩
    simp only [Option.isSome_some, if_true, leafIndexForId, hg, bind, Except.bind, hval, leaf_ok w.shape hi,
      hl0, hnk, insertLeafAt_ok w.shape hi]
    cases hb : (decide (pc.path.length = h) && decide (i = pc.leafIdx)) with
    | true =>
      simp only [if_true]
      simp only [Bool.and_eq_true, decide_eq_true_eq] at hb
      have hkh : k = h := by
        have := congrArg List.length hidx
        rw [List.length_map, path_length, hb.1] at this
        exact this.symm
      obtain ⟨t', h1, h2, h3, h4, h5, _, _, h8⟩ := applyPathLoop_ok pc.removedKeys pc.path w1.shape (by
        intro q hq
        have : q.1 ∈ path k pc.leafIdx := by rw [← hidx]; exact List.mem_map_of_mem hq
        rw [hkh] at this
        exact path_lt hleaf this)
      have w2 := w1.ofInner h2 h3 h4 h5 (h8 f.vers w1.vers)
      exact ⟨t', h1, w2, h5, h4, hleaves t' h3, fun sv => (sv.setLeaf hg nk).ofInner w2 h3 h5⟩
    | false =>
      simp only [Bool.false_eq_true, if_false]
      rw [blankPath_ok w1.shape hi]
      have w2 : WInv { t with leaves := t.leaves.set i (some ⟨pc.leafId, nk⟩), innerNodes := blankAll t.innerNodes (path h i) } h := by
        refine w1.ofInner (shape_blank w1.shape _) rfl rfl rfl ?_
        intro j s hj
        have : innerD { t with leaves := t.leaves.set i (some ⟨pc.leafId, nk⟩), innerNodes := blankAll t.innerNodes (path h i) } j =
          if j ∈ path h i then none else t.innerD j := blankAll_get _ _ _
        rw [this] at hj
        split at hj
        · simp at hj
        · exact w.vers j s hj
      exact ⟨_, rfl, w2, rfl, rfl, hleaves _ rfl, fun sv => (sv.setLeaf hg nk).ofInner w2 rfl rfl⟩

theorem encryptStep_path {g : Gen} {s s' : EncState} (h : encryptStep g s = .ok s') :
    ∃ st, s'.path = s.path ++ [(parent s.childIdx, st)] ∧ st.versions ≠ [] ∧ s'.childIdx = .inner (parent s.childIdx) := by
  unfold encryptStep at h
  simp only [bind, Except.bind] at h
  split at h
  · simp at h
  · split at h
    · simp at h
    · rename_i r hr
      split at h
      · simp at h
      · cases h
        refine ⟨_, rfl, ?_, rfl⟩
        unfold encryptNewSecretStoreForParent at hr
        simp only [bind, Except.bind] at hr
        split at hr
        · simp at hr
        · split at hr
          · cases hr; simp [SecretStore.new]
          · split at hr
            · simp at hr
            · cases hr; simp [SecretStore.new]

theorem encryptLoop_path (g : Gen) {h i : Nat} (hi : i < 2 ^ h) (fuel : Nat) :
    ∀ (k : Nat) (s s' : EncState), Shape s.tree h → k ≤ h → s.childIdx = nd k (i / 2 ^ k) →
      (∀ q ∈ s.path, q.2.versions ≠ []) → encryptLoop g fuel s = .ok s' →
      s'.path.map (·.1) = s.path.map (·.1) ++ above h k i ∧ ∀ q ∈ s'.path, q.2.versions ≠ [] := by
  induction fuel with
  | zero => intro k s s' _ _ _ _ hl; simp [encryptLoop] at hl
  | succ fuel ih =>
    intro k s s' hs hk hc hv hl
    unfold encryptLoop at hl
    by_cases hkh : k = h
    · subst hkh
      rw [if_pos] at hl
      · cases hl
        exact ⟨by rw [above_top]; simp, hv⟩
      · rw [hc, Nat.div_eq_of_lt hi]
        obtain ⟨k', rfl⟩ : ∃ k', k = k' + 1 := ⟨k - 1, by have := hs.pos; omega⟩
        change s.tree.isRoot (.inner (nodeInner k' 0)) = true
        rw [isRoot_inner hs]
        simp
    · have hnr : s.tree.isRoot s.childIdx = false := by
        rw [hc]
        cases k with
        | zero => exact isRoot_leaf hs
        | succ k =>
          change s.tree.isRoot (.inner (nodeInner k _)) = false
          rw [isRoot_inner hs]
          simp; omega
      rw [hnr] at hl
      simp only [Bool.false_eq_true, if_false, bind, Except.bind] at hl
      split at hl
      · simp at hl
      · rename_i s1 h1
        obtain ⟨st, p1, p2, p3⟩ := encryptStep_path h1
        have d := encryptStep_dims h1
        have hs1 : Shape s1.tree h := ⟨hs.pos, by rw [d.size]; exact hs.size, by rw [d.leaves]; exact hs.leaves, by rw [d.inner]; exact hs.inner⟩
        rw [hc, parent_nd] at p1 p3
        have hd : i / 2 ^ k / 2 = i / 2 ^ (k + 1) := (div_pow_succ ..).symm
        rw [hd] at p1 p3
        obtain ⟨e1, e2⟩ := ih (k + 1) s1 s' hs1 (by omega) (by rw [p3]; rfl) (by
          intro q hq
          rw [p1, List.mem_append, List.mem_singleton] at hq
          rcases hq with hq | rfl
          · exact hv q hq
          · exact p2) hl
        refine ⟨?_, e2⟩
        rw [e1, p1, above_cons (by omega : k < h)]
        simp

/-- The path change of an update names the leaf of its author and the inner nodes above it. -/
theorem encryptPath_fits {t t' : BeeKem} {h : Nat} (w : WInv t h) {g : Gen} {c : Nat} {id : MemberId} {pk : Pk} {sks sks' : ShareKeyMap}
    {n : Nat} {k : Sk} {pc : PathChange} (he : t.encryptPath g c id pk sks = .ok (t', sks', n, k, pc)) :
    Fits pc t.nextLeafIdx ∧ pc.leafId = id := by
  unfold encryptPath leafIndexForId at he
  cases hid : AMap.get t.idToLeafIdx id with
  | none => simp [hid, bind, Except.bind] at he
  | some i =>
    have hi := w.lt hid
    obtain ⟨l, hl, -⟩ := w.ids id i hid
    simp only [hid, bind, Except.bind] at he
    split at he
    · simp at he
    · rw [insertLeafAt_ok w.shape hi] at he
      simp only at he
      split at he
      · simp at he
      · split at he
        · simp at he
        · rename_i s hs
          obtain ⟨e1, e2⟩ := encryptLoop_path g hi _ 0 _ _ (w.setLeaf hid (.share pk)).shape (Nat.zero_le _) (by simp [nd]) (by simp) hs
          cases he
          refine ⟨⟨w.occ_lt (by rw [hl]; simp), ⟨h, hi, ?_⟩, e2⟩, rfl⟩
          rw [e1, above_zero]
          simp

end BeeKem

end Verif.BeeKem
