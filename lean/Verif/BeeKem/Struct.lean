import Verif.BeeKem.Secrecy

/-! # Helper lemmas: bookkeeping over arbitrary histories; merging of keys -/

set_option linter.dupNamespace false

namespace Verif.BeeKem

open Verif.TreeMath Verif.BeeKem.Spec

namespace BeeKem

/-- The one panic `encrypt_path` can reach in a tree built by tree operations. -/
def conflictPanic : CgkaError := .panic "Sibling resolution nodes should have exactly one ShareKey"

theorem key_of_noskip {t : BeeKem} (hv : ∀ j s, t.innerD j = some s → s.versions ≠ []) {k m : Nat}
    (h : t.skipD k m = false) : ∃ nk, t.keyD k m = some nk := by
  cases k with
  | zero =>
    cases hl : t.leafD m with
    | none => simp [skipD, hl] at h
    | some l => exact ⟨l.pk, by simp [keyD, hl]⟩
  | succ k =>
    cases hl : t.innerD (nodeInner k m) with
    | none => simp [skipD, hl] at h
    | some st =>
      obtain ⟨nk, h1, _⟩ := keyD_inner hl (hv _ _ hl)
      exact ⟨nk, h1⟩

theorem encryptForResolution_weak {t : BeeKem} {h : Nat} (hs : Shape t h)
    (childIdx : TreeNodeIndex) (e sN : Sk) (rl : List (Nat × Nat))
    (hin : ∀ r ∈ rl, InR h r.1 r.2) (hk : ∀ r ∈ rl, ∃ nk, t.keyD r.1 r.2 = some nk) (used : Bool)
    (m : AMap TreeNodeIndex EncryptedSecret) :
    (∃ m', t.encryptForResolution childIdx e sN (rl.map (fun p => nd p.1 p.2)) used m = .ok m') ∨
      t.encryptForResolution childIdx e sN (rl.map (fun p => nd p.1 p.2)) used m = .error conflictPanic := by
  induction rl generalizing used m with
  | nil => exact Or.inl ⟨m, rfl⟩
  | cons r rl ih =>
    obtain ⟨nk, hnk⟩ := hk r (by simp)
    rw [List.map_cons]
    unfold encryptForResolution
    rw [nodeKeyForIndex_ok hs (hin r (by simp)) hnk]
    cases nk with
    | conflict a b c => exact Or.inr rfl
    | share pk =>
      exact ih (fun x hx => hin x (List.mem_cons_of_mem _ hx)) (fun x hx => hk x (List.mem_cons_of_mem _ hx)) _ _

theorem encryptStep_weak {s : EncState} {h : Nat} (hs : Shape s.tree h)
    (hv : ∀ j st, s.tree.innerD j = some st → st.versions ≠ []) (g : Gen) {k m : Nat} (hin : InR h k m)
    (hk : k < h) (hc : s.childIdx = nd k m) :
    (∃ s', encryptStep g s = .ok s' ∧ Shape s'.tree h ∧ s'.tree.leaves = s.tree.leaves ∧
      s'.tree.nextLeafIdx = s.tree.nextLeafIdx ∧ s'.tree.idToLeafIdx = s.tree.idToLeafIdx ∧
      (∀ j st, s'.tree.innerD j = some st → st.versions ≠ []) ∧ s'.childIdx = nd (k + 1) (m / 2) ∧
      s'.tree.skipD (k + 1) (m / 2) = false) ∨
    encryptStep g s = .error conflictPanic := by
  have hpin : nodeInner k (m / 2) < 2 ^ h - 1 := inR_inner.1 (hin.parent hk)
  have hik : s.tree.innerKeys (nodeInner k (m / 2)) = .ok (keysOn s.tree [nodeInner k (m / 2)]) := by
    have := collectKeys_ok hs hv [nodeInner k (m / 2)] (by simpa using hpin)
    unfold collectKeys at this
    cases hx : s.tree.innerKeys (nodeInner k (m / 2)) with
    | error e => rw [hx] at this; simp [bind, Except.bind] at this
    | ok ks =>
      rw [hx] at this
      simpa [bind, Except.bind, collectKeys, pure, Except.pure] using this
  have hsibr : InR h k (sib m) := hin.sib hk
  have hres := appendResolution_ok hs hsibr (fuel := s.tree.treeSize + 1) (by have := size_gt hs; omega) []
  have hnew : ∀ c cpk csk ppk psk, (∃ v c', s.tree.encryptNewSecretStoreForParent g c (nd k m) cpk csk ppk psk = .ok (⟨[v]⟩, c')) ∨
      s.tree.encryptNewSecretStoreForParent g c (nd k m) cpk csk ppk psk = .error conflictPanic := by
    intro c cpk csk ppk psk
    unfold encryptNewSecretStoreForParent
    rw [sibling_nd, hres]
    simp only [bind, Except.bind, List.nil_append]
    split
    · exact Or.inl ⟨_, _, rfl⟩
    · have hrin : ∀ r ∈ s.tree.resList k (sib m), InR h r.1 r.2 := by
        rintro ⟨k', m'⟩ hr
        obtain ⟨h1, h2, _⟩ := mem_resList.1 hr
        refine ⟨by have := hsibr.1; simp only; omega, ?_⟩
        have h3 := hsibr.2
        rw [← h2, Nat.div_lt_iff_lt_mul (Nat.pow_pos (by decide)), ← Nat.pow_add] at h3
        have : h - k + (k - k') = h - k' := by have := hsibr.1; omega
        rw [this] at h3
        exact h3
      have hrk : ∀ r ∈ s.tree.resList k (sib m), ∃ nk, s.tree.keyD r.1 r.2 = some nk := by
        rintro ⟨k', m'⟩ hr
        obtain ⟨_, _, h3, _⟩ := mem_resList.1 hr
        exact key_of_noskip hv h3
      rcases encryptForResolution_weak hs (nd k m) csk psk _ hrin hrk false [] with ⟨m', h1⟩ | h1
      · rw [h1]; exact Or.inl ⟨_, _, rfl⟩
      · rw [h1]; exact Or.inr rfl
  unfold encryptStep
  rw [hc, parent_nd]
  simp only [hik, bind, Except.bind]
  rcases hnew (s.rng + 1) s.childPk s.childSk (shareKey (g s.rng)) (g s.rng) with ⟨v, c', h1⟩ | h1
  · left
    rw [h1]
    simp only [insertInnerNodeAt_ok hs hpin]
    have hI : ∀ j, innerD { s.tree with innerNodes := s.tree.innerNodes.set (nodeInner k (m / 2)) (some ⟨[v]⟩) } j =
        if j = nodeInner k (m / 2) then some ⟨[v]⟩ else s.tree.innerD j := innerD_set hs hpin _
    refine ⟨_, rfl, shape_setInner hs _ _, rfl, rfl, rfl, ?_, rfl, ?_⟩
    · intro j st hj
      simp only [hI] at hj
      split at hj
      · simp only [Option.some.injEq] at hj
        subst hj; simp
      · exact hv j st hj
    · simp only [skipD, hI, if_true]
      simp [SecretStore.hasConflict]
  · right
    rw [h1]

theorem encryptLoop_weak (g : Gen) {h i : Nat} (hi : i < 2 ^ h) (fuel : Nat) :
    ∀ (k : Nat) (s : EncState), Shape s.tree h →
      (∀ j st, s.tree.innerD j = some st → st.versions ≠ []) → k ≤ h →
      s.childIdx = nd k (i / 2 ^ k) → (k ≠ 0 → s.tree.skipD k (i / 2 ^ k) = false) → h - k < fuel →
      (∃ s', encryptLoop g fuel s = .ok s' ∧ Shape s'.tree h ∧ s'.tree.leaves = s.tree.leaves ∧
        s'.tree.nextLeafIdx = s.tree.nextLeafIdx ∧ s'.tree.idToLeafIdx = s.tree.idToLeafIdx ∧
        (∀ j st, s'.tree.innerD j = some st → st.versions ≠ []) ∧ s'.tree.skipD h 0 = false) ∨
      encryptLoop g fuel s = .error conflictPanic := by
  induction fuel with
  | zero => intro k s _ _ _ _ _ hf; omega
  | succ fuel ih =>
    intro k s hs hv hk hc hsk hf
    unfold encryptLoop
    by_cases hkh : k = h
    · subst hkh
      left
      refine ⟨s, ?_, hs, rfl, rfl, rfl, hv, ?_⟩
      · rw [if_pos]
        rw [hc, Nat.div_eq_of_lt hi]
        obtain ⟨k', rfl⟩ : ∃ k', k = k' + 1 := ⟨k - 1, by have := hs.pos; omega⟩
        change s.tree.isRoot (.inner (nodeInner k' 0)) = true
        rw [isRoot_inner hs]
        simp
      · have := hsk (by have := hs.pos; omega)
        rwa [Nat.div_eq_of_lt hi] at this
    · have hnr : s.tree.isRoot s.childIdx = false := by
        rw [hc]
        cases k with
        | zero => exact isRoot_leaf hs
        | succ k =>
          change s.tree.isRoot (.inner (nodeInner k _)) = false
          rw [isRoot_inner hs]
          simp; omega
      rw [hnr]
      simp only [Bool.false_eq_true, if_false, bind, Except.bind]
      rcases encryptStep_weak hs hv g (inR_anc hi hk) (by omega) hc with ⟨s1, h1, h2, h3, h4, h5, h6, h7, h8⟩ | h1
      · rw [h1]
        rw [← div_pow_succ] at h7 h8
        rcases ih (k + 1) s1 h2 h6 (by omega) h7 (fun _ => h8) (by omega) with
          ⟨s', g1, g2, g3, g4, g5, g6, g7⟩ | g1
        · left
          exact ⟨s', g1, g2, by rw [g3, h3], by rw [g4, h4], by rw [g5, h5], g6, g7⟩
        · right; exact g1
      · right; rw [h1]

/-- `encrypt_path` in any tree built by tree operations. -/
theorem encryptPath_weak (g : Gen) (c : Nat) {t : BeeKem} {h : Nat} (w : WInv t h) (id : MemberId)
    (pk : Pk) (sks : ShareKeyMap) :
    (∃ t' x, t.encryptPath g c id pk sks = .ok (t', x) ∧ WInv t' h ∧ t'.idToLeafIdx = t.idToLeafIdx ∧
      (SInv t h → SInv t' h) ∧ t'.skipD h 0 = false ∧ (∃ i, AMap.get t.idToLeafIdx id = some i) ∧
      (∃ sk, AMap.get sks pk = some sk) ∧ t'.leaves.length = t.leaves.length ∧
      t'.innerNodes.length = t.innerNodes.length) ∨
    (t.encryptPath g c id pk sks = .error .identifierNotFound ∧ AMap.get t.idToLeafIdx id = none) ∨
    (t.encryptPath g c id pk sks = .error .secretKeyNotFound ∧ AMap.get sks pk = none) ∨
    t.encryptPath g c id pk sks = .error conflictPanic := by
  cases hid : AMap.get t.idToLeafIdx id with
  | none =>
    right; left
    refine ⟨?_, rfl⟩
    unfold encryptPath leafIndexForId
    simp [hid, bind, Except.bind]
  | some i =>
    have hi := w.lt hid
    obtain ⟨l, hl, hlid⟩ := w.ids id i hid
    have hk : t.nodeKeyForId id = .ok l.pk := by
      unfold nodeKeyForId leafIndexForId nodeKeyForIndex
      simp only [hid, bind, Except.bind]
      rw [leaf_ok w.shape hi, hl]
    have w1 := w.setLeaf hid (.share pk)
    unfold encryptPath leafIndexForId
    simp only [hid, bind, Except.bind]
    rw [hk]
    simp only [insertLeafAt_ok w.shape hi]
    cases hsk : AMap.get sks pk with
    | none => right; right; left; exact ⟨rfl, rfl⟩
    | some sk =>
      simp only
      rcases encryptLoop_weak g hi (t.treeSize + 1) 0
        { tree := { t with leaves := t.leaves.set i (some ⟨id, .share pk⟩) }, sks, rng := c, childIdx := .leaf i, childPk := pk, childSk := sk, path := [], removed := l.pk.keys }
        w1.shape w1.vers (Nat.zero_le _) (by simp [nd]) (by simp) (by have := size_gt w.shape; omega) with
        ⟨s', g1, g2, g3, g4, g5, g6, g7⟩ | g1
      · left
        rw [g1]
        have w2 := w1.ofInner g2 g3 g4 g5 g6
        refine ⟨_, _, rfl, w2, g5, fun sv => (sv.setLeaf hid (.share pk)).ofInner w2 g3 g5, g7, ⟨i, rfl⟩, ⟨sk, rfl⟩, ?_, ?_⟩
        · rw [g2.leaves, w.shape.leaves]
        · rw [g2.inner, w.shape.inner]
      · right; right; right
        rw [g1]

theorem contains_get {t : BeeKem} {id : MemberId} :
    t.containsId id = true ↔ ∃ i, AMap.get t.idToLeafIdx id = some i := by
  unfold containsId AMap.contains
  rw [Option.isSome_iff_exists]

theorem contains_false {t : BeeKem} {id : MemberId} :
    t.containsId id = false ↔ AMap.get t.idToLeafIdx id = none := by
  unfold containsId AMap.contains
  simp

/-- What `TreeOp.run` can do in a tree built by tree operations. -/
theorem run_ok {t : BeeKem} {h : Nat} (w : SInv t h) (op : TreeOp) (hok : op.Ok t) :
    (∃ t' h', op.run t = .ok t' ∧ SInv t' h' ∧
      AMap.keys t'.idToLeafIdx = (match op with
        | .add id _ => if id ∈ AMap.keys t.idToLeafIdx then AMap.keys t.idToLeafIdx else id :: AMap.keys t.idToLeafIdx
        | .remove id => (AMap.keys t.idToLeafIdx).filter (· ≠ id)
        | _ => AMap.keys t.idToLeafIdx)) ∨
    (op.run t = .error .removeLastMember ∧ t.memberCount = 1) ∨
    op.run t = .error .identifierNotFound ∨ op.run t = .error .secretKeyNotFound ∨
    op.run t = .error conflictPanic := by
  have herase : ∀ id, AMap.keys (AMap.erase t.idToLeafIdx id) = (AMap.keys t.idToLeafIdx).filter (· ≠ id) := by
    intro id
    unfold AMap.keys AMap.erase
    rw [List.filter_map]
    rfl
  cases op with
  | add id pk =>
    left
    cases hc : t.containsId id with
    | true =>
      refine ⟨t, h, by simp [TreeOp.run, hc], w, ?_⟩
      have : id ∈ AMap.keys t.idToLeafIdx := by
        rw [AMap.mem_keys_iff]
        obtain ⟨i, hi⟩ := contains_get.1 hc
        simp [hi]
      simp [this]
    | false =>
      have hnone := contains_false.1 hc
      obtain ⟨t', h', h1, h2, _, _, h5, h6, _⟩ := pushLeaf_full w.toWInv id pk
      have hnk : id ∉ AMap.keys t.idToLeafIdx := by
        rw [AMap.mem_keys_iff, not_not]; exact hnone
      refine ⟨t', h', by simp [TreeOp.run, hc, h1, bind, Except.bind, pure, Except.pure], pushLeaf_strong w pk hnone h2 h5 h6, ?_⟩
      simp only [h5, hnk, if_false]
      unfold AMap.insert
      change id :: AMap.keys (AMap.erase t.idToLeafIdx id) = _
      rw [herase]
      congr 1
      rw [List.filter_eq_self]
      intro a ha
      simp only [decide_eq_true_eq]
      intro he
      exact hnk (he ▸ ha)
  | remove id =>
    cases hc : t.containsId id with
    | false =>
      left
      have hnone := contains_false.1 hc
      refine ⟨t, h, by simp [TreeOp.run, hc], w, ?_⟩
      simp only
      symm
      rw [List.filter_eq_self]
      intro a ha
      simp only [decide_eq_true_eq]
      rintro rfl
      rw [AMap.mem_keys_iff] at ha
      exact ha hnone
    | true =>
      obtain ⟨i, hi⟩ := contains_get.1 hc
      rcases removeId_cases t id with ⟨h1, h2⟩ | ⟨_, h1, _⟩ | ⟨i', h1, h2⟩
      · right; left
        exact ⟨by simp [TreeOp.run, hc, h2, bind, Except.bind], h1⟩
      · rw [h1] at hi; simp at hi
      · left
        obtain ⟨t', B, g1, g2, g3, g4, _⟩ := removeId_ok w.toWInv h2 h1
        refine ⟨t', h, by simp [TreeOp.run, hc, g1, bind, Except.bind, pure, Except.pure], removeId_strong w h2 g2 g3 g4, ?_⟩
        rw [g3, herase]
  | update g c id pk sks =>
    rcases encryptPath_weak g c w.toWInv id pk sks with ⟨t', x, h1, h2, h3, h4, _⟩ | ⟨h1, _⟩ | ⟨h1, _⟩ | h1
    · left
      exact ⟨t', h, by simp [TreeOp.run, h1, bind, Except.bind, pure, Except.pure], h4 w, by rw [h3]⟩
    · right; right; left; simp [TreeOp.run, h1, bind, Except.bind]
    · right; right; right; left; simp [TreeOp.run, h1, bind, Except.bind]
    · right; right; right; right; simp [TreeOp.run, h1, bind, Except.bind]
  | install pc =>
    left
    obtain ⟨hp1, hp2⟩ := hok
    rw [w.shape.leaves] at hp1
    obtain ⟨t', h1, h2, h3, _, _, h6⟩ := applyPath_ok w.toWInv pc hp1
      (fun q hq => by have := (hp2 q hq).1; rwa [w.shape.inner] at this) (fun q hq => (hp2 q hq).2)
    exact ⟨t', h, h1, h6 w, by rw [h3]⟩

theorem history_inv {t : BeeKem} {ms : List MemberId} (H : History t ms) :
    (∃ h, SInv t h) ∧ AMap.keys t.idToLeafIdx = ms := by
  induction H with
  | @start id pk t hnew =>
    obtain ⟨t', h1, h2, _, _, h5, _⟩ := new_ok id pk
    rw [hnew] at h1
    simp only [Except.ok.injEq] at h1
    subst h1
    exact ⟨⟨1, h2⟩, by rw [h5]; rfl⟩
  | @step t t' ms op _ hok hrun ih =>
    obtain ⟨⟨h, w⟩, hk⟩ := ih
    rcases run_ok w op hok with ⟨t1, h', h1, h2, h3⟩ | ⟨h1, _⟩ | h1 | h1 | h1
    · rw [hrun] at h1
      simp only [Except.ok.injEq] at h1
      subst h1
      refine ⟨⟨h', h2⟩, ?_⟩
      rw [h3, ← hk]
      cases op <;> rfl
    all_goals (rw [hrun] at h1; simp at h1)

end BeeKem

/-! ## Merging concurrent keys -/

theorem sortKeys_perm (l : List Pk) : (sortKeys l).Perm l := isort_perm _

theorem sortKeys_eq_of_perm {a b : List Pk} (h : a.Perm b) : sortKeys a = sortKeys b := by
  refine isort_eq_of_perm ?_ ?_ ?_ h
  · intro a b c h1 h2
    simp only [decide_eq_true_eq] at *
    exact Nat.le_trans h1 h2
  · intro a b
    simp only [decide_eq_true_eq]
    exact Nat.le_total _ _
  · intro x y h1 h2
    simp only [decide_eq_true_eq] at *
    cases x; cases y
    simp only [Pk.mk.injEq]
    exact Nat.le_antisymm h1 h2

/-- `NodeKey::merge` keeps exactly the incoming keys and the old keys not declared removed. -/
theorem merge_keys (a b : NodeKey) (removed : List Pk) :
    ∃ nk, a.merge b removed = .ok nk ∧
      nk.keys.Perm (b.keys ++ a.keys.filter (fun k => decide (k ∉ removed))) := by
  unfold NodeKey.merge
  have hne : ∀ l : List Pk, sortKeys (b.keys ++ l) ≠ [] := by
    intro l hc
    have := (sortKeys_perm (b.keys ++ l)).length_eq
    rw [hc] at this
    have h2 := BeeKem.NodeKey.keys_ne b
    have := List.length_pos_iff.2 h2
    simp only [List.length_nil, List.length_append] at *
    omega
  cases a with
  | share key =>
    have hks : (NodeKey.share key).keys = [key] := rfl
    rw [hks]
    dsimp only
    by_cases hk : key ∈ removed
    · rw [if_pos hk]
      exact ⟨b, rfl, by simp [hk]⟩
    · rw [if_neg hk]
      obtain ⟨nk, h1, h2⟩ := BeeKem.ofSlice_ok (hne [key])
      refine ⟨nk, h1, ?_⟩
      rw [h2]
      simp only [List.filter_cons, hk, not_false_eq_true, decide_true, if_true, List.filter_nil]
      exact sortKeys_perm _
  | conflict x y more =>
    simp only
    obtain ⟨nk, h1, h2⟩ := BeeKem.ofSlice_ok (hne _)
    refine ⟨nk, h1, ?_⟩
    rw [h2]
    exact sortKeys_perm _

/-- With a single incoming key the result is a function of the key multiset. -/
theorem merge_share (a : NodeKey) (k : Pk) (removed : List Pk) :
    a.merge (.share k) removed =
      NodeKey.ofSlice (sortKeys (k :: a.keys.filter (fun k => decide (k ∉ removed)))) := by
  unfold NodeKey.merge
  cases a with
  | share key =>
    simp only [NodeKey.keys]
    by_cases hk : key ∈ removed
    · rw [if_pos hk]
      simp [hk, sortKeys, isort, insertBy, NodeKey.ofSlice]
    · rw [if_neg hk]
      simp [hk]
  | conflict x y more => rfl

end Verif.BeeKem
