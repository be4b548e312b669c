import Verif.BeeKem.Struct

/-! # Helper lemmas: the arrays keep their shape whatever is applied to the tree -/

set_option linter.dupNamespace false

namespace Verif.BeeKem

open Verif.TreeMath

namespace BeeKem

/-- The arrays have the sizes of a full tree with room for the leaves in use. -/
structure Fit (t : BeeKem) (h : Nat) : Prop where
  shape : Shape t h
  next : t.nextLeafIdx ≤ 2 ^ h

/-- Array sizes unchanged, leaves in use not increased. -/
structure Dims (t t' : BeeKem) : Prop where
  size : t'.treeSize = t.treeSize
  leaves : t'.leaves.length = t.leaves.length
  inner : t'.innerNodes.length = t.innerNodes.length
  next : t'.nextLeafIdx ≤ t.nextLeafIdx

theorem Dims.refl (t : BeeKem) : Dims t t := ⟨rfl, rfl, rfl, Nat.le_refl _⟩

theorem Dims.trans {a b c : BeeKem} (h : Dims a b) (h' : Dims b c) : Dims a c :=
  ⟨h'.size.trans h.size, h'.leaves.trans h.leaves, h'.inner.trans h.inner, Nat.le_trans h'.next h.next⟩

theorem Dims.fit {t t' : BeeKem} {h : Nat} (d : Dims t t') (f : Fit t h) : Fit t' h :=
  ⟨⟨f.shape.pos, by rw [d.size, f.shape.size], by rw [d.leaves, f.shape.leaves], by rw [d.inner, f.shape.inner]⟩,
    Nat.le_trans d.next f.next⟩

/-- Blank inner nodes stay blank. -/
def BlankOnly (t t' : BeeKem) : Prop := ∀ j, t.innerD j = none → t'.innerD j = none

theorem rootBlank {t : BeeKem} {h : Nat} (hs : Shape t h) (hn : t.innerD (nodeInner (h - 1) 0) = none) :
    t.hasRootKey = .ok false := by
  rw [hasRootKey_ok hs]
  obtain ⟨k, rfl⟩ : ∃ k, h = k + 1 := ⟨h - 1, by have := hs.pos; omega⟩
  simp only [Nat.add_sub_cancel] at hn
  simp [skipD, hn]

theorem root_on_path {h b : Nat} (hp : 1 ≤ h) (hb : b < 2 ^ h) : nodeInner (h - 1) 0 ∈ path h b := by
  obtain ⟨k, rfl⟩ : ∃ k, h = k + 1 := ⟨h - 1, by omega⟩
  exact root_mem_path hb

theorem blankInnerNode_dims {t t' : BeeKem} {i : Nat} (h : t.blankInnerNode i = .ok t') :
    Dims t t' ∧ BlankOnly t t' ∧ t'.nextLeafIdx = t.nextLeafIdx := by
  unfold blankInnerNode at h
  split at h
  · cases h
    refine ⟨⟨rfl, rfl, by simp, Nat.le_refl _⟩, ?_, rfl⟩
    intro j hj
    unfold innerD at *
    simp only
    by_cases hij : i = j
    · subst hij
      rename_i hlt
      simp [hlt]
    · rw [List.getElem?_set_ne hij]; exact hj
  · simp at h

theorem blankPathLoop_dims {fuel : Nat} {t t' : BeeKem} {i : Nat} (h : blankPathLoop fuel t i = .ok t') :
    Dims t t' ∧ BlankOnly t t' ∧ t'.nextLeafIdx = t.nextLeafIdx := by
  induction fuel generalizing t i with
  | zero => simp [blankPathLoop] at h
  | succ fuel ih =>
    unfold blankPathLoop at h
    split at h
    · exact blankInnerNode_dims h
    · simp only [bind, Except.bind] at h
      split at h
      · simp at h
      · rename_i t1 h1
        obtain ⟨a1, a2, a3⟩ := blankInnerNode_dims h1
        obtain ⟨b1, b2, b3⟩ := ih h
        exact ⟨a1.trans b1, fun j hj => b2 j (a2 j hj), b3.trans a3⟩

theorem blankPath_dims {t t' : BeeKem} {i : Nat} (h : t.blankPath i = .ok t') :
    Dims t t' ∧ BlankOnly t t' ∧ t'.nextLeafIdx = t.nextLeafIdx := blankPathLoop_dims h

theorem blankLeafAndPath_dims {t t' : BeeKem} {i : Nat} (h : t.blankLeafAndPath i = .ok t') :
    i < t.leaves.length ∧ Dims t t' ∧ BlankOnly t t' ∧ t'.nextLeafIdx = t.nextLeafIdx := by
  unfold blankLeafAndPath blankLeaf at h
  split at h
  · rename_i hlt
    simp only [bind, Except.bind] at h
    obtain ⟨a1, a2, a3⟩ := blankPath_dims h
    refine ⟨hlt, ⟨a1.size, ?_, a1.inner, a1.next⟩, fun j hj => a2 j hj, a3⟩
    have := a1.leaves
    simpa using this
  · simp [bind, Except.bind] at h

theorem dropTombstones_dims {fuel : Nat} {t t' : BeeKem} (h : dropTombstones fuel t = .ok t') :
    Dims t t' ∧ BlankOnly t t' := by
  induction fuel generalizing t with
  | zero => simp [dropTombstones] at h
  | succ fuel ih =>
    unfold dropTombstones at h
    split at h
    · simp at h
    · simp only [bind, Except.bind] at h
      split at h
      · simp at h
      · split at h
        · cases h; exact ⟨Dims.refl _, fun _ => id⟩
        · split at h
          · simp at h
          · rename_i t1 h1
            obtain ⟨a1, a2, a3⟩ := blankPath_dims h1
            obtain ⟨b1, b2⟩ := ih h
            refine ⟨a1.trans ⟨b1.size, b1.leaves, b1.inner, ?_⟩, fun j hj => b2 j (a2 j hj)⟩
            have := b1.next
            simp only at this
            omega

theorem removeId_fit {t t' : BeeKem} {h : Nat} {id : MemberId} {x : Nat × List Pk} (f : Fit t h)
    (hr : t.removeId id = .ok (t', x)) : Fit t' h ∧ t'.hasRootKey = .ok false := by
  unfold removeId at hr
  split at hr
  · simp at hr
  · simp only [bind, Except.bind] at hr
    split at hr
    · simp at hr
    · split at hr
      · simp at hr
      · split at hr
        · simp at hr
        · split at hr
          · simp at hr
          · rename_i lIdx _ _ _ _ _ _ _ _ t1 h1
            split at hr
            · simp at hr
            · rename_i t3 h3
              cases hr
              obtain ⟨hlt, d1, _, _⟩ := blankLeafAndPath_dims h1
              obtain ⟨d2, b2⟩ := dropTombstones_dims h3
              have hlt' : lIdx < 2 ^ h := by rw [← f.shape.leaves]; exact hlt
              obtain ⟨t1', e1, s1, _, _, _, i1⟩ := blankLeafAndPath_ok f.shape hlt'
              rw [h1] at e1
              cases e1
              have hf3 := (d1.trans ⟨d2.size, d2.leaves, d2.inner, d2.next⟩).fit f
              refine ⟨hf3, rootBlank hf3.shape (b2 _ ?_)⟩
              show t1.innerD _ = none
              rw [i1, if_pos (root_on_path f.shape.pos hlt')]

theorem pushLeaf_fit {t t' : BeeKem} {h : Nat} {id : MemberId} {pk : NodeKey} {i : Nat} (f : Fit t h)
    (hr : t.pushLeaf id pk = .ok (t', i)) : (∃ h', Fit t' h') ∧ t'.hasRootKey = .ok false := by
  obtain ⟨t1, h', e1, s1, _, h4, h5, _, _, h8⟩ := pushLeaf_ok f.shape f.next id pk
  rw [hr] at e1
  cases e1
  refine ⟨⟨h', s1, by omega⟩, rootBlank s1 ?_⟩
  rw [h8, if_pos (root_on_path s1.pos h4)]

theorem insertInnerNodeAt_dims {t t' : BeeKem} {i : Nat} {s : SecretStore} (h : t.insertInnerNodeAt i s = .ok t') :
    Dims t t' := by
  unfold insertInnerNodeAt at h
  split at h
  · cases h; exact ⟨rfl, rfl, by simp, Nat.le_refl _⟩
  · simp at h

theorem insertLeafAt_dims {t t' : BeeKem} {i : Nat} {id : MemberId} {k : NodeKey}
    (h : t.insertLeafAt i id k = .ok t') : Dims t t' := by
  unfold insertLeafAt at h
  split at h
  · cases h; exact ⟨rfl, by simp, rfl, Nat.le_refl _⟩
  · simp at h

theorem applyPathLoop_dims {removed : List Pk} {ps : List (Nat × SecretStore)} {t t' : BeeKem}
    (h : applyPathLoop removed t ps = .ok t') : Dims t t' := by
  induction ps generalizing t with
  | nil => cases h; exact Dims.refl _
  | cons p ps ih =>
    obtain ⟨i, s⟩ := p
    simp only [applyPathLoop, bind, Except.bind] at h
    cases hn : t.innerNode i with
    | error e => simp [hn] at h
    | ok o =>
      simp only [hn] at h
      cases o with
      | none =>
        simp only at h
        split at h
        · simp at h
        · rename_i t1 h1
          exact (insertInnerNodeAt_dims h1).trans (ih h)
      | some cur =>
        simp only at h
        split at h
        · simp at h
        · rename_i t1 h1
          exact (insertInnerNodeAt_dims h1).trans (ih h)

theorem applyPath_dims {t t' : BeeKem} {pc : PathChange} (h : t.applyPath pc = .ok t') : Dims t t' := by
  unfold applyPath at h
  split at h
  · simp only [bind, Except.bind] at h
    split at h
    · simp at h
    · split at h
      · simp at h
      · split at h
        · simp at h
        · split at h
          · simp at h
          · split at h
            · simp at h
            · split at h
              · simp at h
              · rename_i t1 h1
                split at h
                · exact (insertLeafAt_dims h1).trans (applyPathLoop_dims h)
                · exact (insertLeafAt_dims h1).trans (blankPath_dims h).1
  · cases h; exact Dims.refl _

theorem encryptStep_dims {g : Gen} {s s' : EncState} (h : encryptStep g s = .ok s') : Dims s.tree s'.tree := by
  unfold encryptStep at h
  simp only [bind, Except.bind] at h
  split at h
  · simp at h
  · split at h
    · simp at h
    · split at h
      · simp at h
      · rename_i t1 h1
        cases h
        exact insertInnerNodeAt_dims h1

theorem encryptLoop_dims {g : Gen} {fuel : Nat} {s s' : EncState} (h : encryptLoop g fuel s = .ok s') :
    Dims s.tree s'.tree := by
  induction fuel generalizing s with
  | zero => simp [encryptLoop] at h
  | succ fuel ih =>
    unfold encryptLoop at h
    split at h
    · cases h; exact Dims.refl _
    · simp only [bind, Except.bind] at h
      split at h
      · simp at h
      · rename_i s1 h1
        exact (encryptStep_dims h1).trans (ih h)

theorem encryptPath_dims {t t' : BeeKem} {g : Gen} {c : Nat} {id : MemberId} {pk : Pk} {sks : ShareKeyMap}
    {x : ShareKeyMap × Nat × Sk × PathChange} (h : t.encryptPath g c id pk sks = .ok (t', x)) : Dims t t' := by
  unfold encryptPath at h
  simp only [bind, Except.bind] at h
  split at h
  · simp at h
  · split at h
    · simp at h
    · split at h
      · simp at h
      · rename_i t1 h1
        split at h
        · simp at h
        · split at h
          · simp at h
          · rename_i s hs
            cases h
            exact (insertLeafAt_dims h1).trans (encryptLoop_dims hs)

theorem blankRemoved_dims {l : List (MemberId × Nat)} {t t' : BeeKem} (h : t.blankRemoved l = .ok t') : Dims t t' := by
  induction l generalizing t with
  | nil => cases h; exact Dims.refl _
  | cons p l ih =>
    obtain ⟨a, i⟩ := p
    simp only [blankRemoved, bind, Except.bind] at h
    split at h
    · simp at h
    · rename_i t1 h1
      exact (blankLeafAndPath_dims h1).2.1.trans (ih h)

theorem popLeaves_dims {fuel : Nat} {t t' : BeeKem} {a : List MemberId} {acc ls : List LeafNode}
    (h : popLeaves fuel t a acc = .ok (t', ls)) : Dims t t' := by
  induction fuel generalizing t a acc with
  | zero => cases h; exact Dims.refl _
  | succ fuel ih =>
    unfold popLeaves at h
    split at h
    · cases h; exact Dims.refl _
    · simp only [bind, Except.bind] at h
      split at h
      · simp at h
      · split at h
        · simp at h
        · rename_i t1 h1
          have d1 := (blankLeafAndPath_dims h1).2.1
          have d2 := ih h
          refine d1.trans ⟨d2.size, d2.leaves, d2.inner, ?_⟩
          have hn := (blankLeafAndPath_dims h1).2.2.2
          have := d2.next
          simp only at this
          omega

theorem pushAll_fit {ls : List LeafNode} {t t' : BeeKem} {h : Nat} (f : Fit t h) (hr : pushAll t ls = .ok t') :
    ∃ h', Fit t' h' := by
  induction ls generalizing t h with
  | nil => cases hr; exact ⟨h, f⟩
  | cons l ls ih =>
    simp only [pushAll, bind, Except.bind] at hr
    split at hr
    · simp at hr
    · rename_i p h1
      obtain ⟨t1, i⟩ := p
      obtain ⟨⟨h', f'⟩, _⟩ := pushLeaf_fit f h1
      exact ih f' hr

theorem sortLeaves_fit {t t' : BeeKem} {h : Nat} {a : List MemberId} {r : List (MemberId × Nat)} (f : Fit t h)
    (hr : t.sortLeavesAndBlankPaths a r = .ok t') : ∃ h', Fit t' h' := by
  unfold sortLeavesAndBlankPaths at hr
  simp only [bind, Except.bind] at hr
  split at hr
  · simp at hr
  · rename_i t1 h1
    split at hr
    · simp at hr
    · rename_i p h2
      obtain ⟨t2, ls⟩ := p
      exact pushAll_fit (((blankRemoved_dims h1).trans (popLeaves_dims h2)).fit f) hr

/-! ## A path change installs exactly the tree of the member who made it -/

theorem ofSlice_keys {l : List Pk} {k : NodeKey} (h : NodeKey.ofSlice l = .ok k) : k.keys = l := by
  unfold NodeKey.ofSlice at h
  split at h
  · simp at h
  · cases h; rfl
  · cases h; rfl

theorem applyPathLoop_append (R : List Pk) (ps qs : List (Nat × SecretStore)) (t : BeeKem) :
    applyPathLoop R t (ps ++ qs) = (applyPathLoop R t ps).bind (fun t' => applyPathLoop R t' qs) := by
  induction ps generalizing t with
  | nil => rfl
  | cons p ps ih =>
    obtain ⟨i, s⟩ := p
    simp only [List.cons_append, applyPathLoop, bind, Except.bind]
    split
    · rfl
    · rw [ih]; rfl

theorem encryptStep_applies {g : Gen} {s s' : EncState} (h : encryptStep g s = .ok s') :
    s'.childIdx = .inner (parent s.childIdx) ∧ s'.tree.treeSize = s.tree.treeSize ∧
    ∃ store rk, s'.path = s.path ++ [(parent s.childIdx, store)] ∧ s'.removed = s.removed ++ rk ∧
      ∀ R : List Pk, (∀ k ∈ rk, k ∈ R) → applyPathLoop R s.tree [(parent s.childIdx, store)] = .ok s'.tree := by
  have hd := (encryptStep_dims h).size
  unfold encryptStep at h
  simp only [bind, Except.bind] at h
  split at h
  · simp at h
  · rename_i rk hrk
    split at h
    · simp at h
    · rename_i p hp
      obtain ⟨store, rng⟩ := p
      split at h
      · simp at h
      · rename_i t1 h1
        simp only [pure, Except.pure, Except.ok.injEq] at h
        subst h
        refine ⟨rfl, hd, store, rk, rfl, rfl, ?_⟩
        intro R hR
        unfold innerKeys at hrk
        simp only [bind, Except.bind] at hrk
        cases hn : s.tree.innerNode (parent s.childIdx) with
        | error e => rw [hn] at hrk; simp at hrk
        | ok o =>
          rw [hn] at hrk
          simp only [applyPathLoop, bind, Except.bind, hn]
          cases o with
          | none => simp only [h1]
          | some cur =>
            simp only at hrk ⊢
            cases hk : cur.nodeKey with
            | error e => rw [hk] at hrk; simp at hrk
            | ok nk =>
              rw [hk] at hrk
              simp only [pure, Except.pure, Except.ok.injEq] at hrk
              have hkeys := ofSlice_keys hk
              have hm : cur.merge store R = store := by
                unfold SecretStore.merge SecretStore.removeKeysFrom
                have : cur.versions.filter (fun v => decide (v.pk ∉ R)) = [] := by
                  rw [List.filter_eq_nil_iff]
                  intro v hv
                  simp only [decide_eq_true_eq, not_not]
                  apply hR
                  rw [← hrk, hkeys]
                  exact List.mem_map_of_mem hv
                rw [this]
                rfl
              rw [hm, h1]

theorem encryptLoop_applies {g : Gen} {fuel : Nat} {s s' : EncState} (h : encryptLoop g fuel s = .ok s') :
    ∃ ps rk l, s'.path = s.path ++ ps ∧ s'.removed = s.removed ++ rk ∧
      directPathLoop (root s.tree.treeSize).u32 fuel s.childIdx.u32 = some l ∧ l.length = ps.length ∧
      ∀ R : List Pk, (∀ k ∈ rk, k ∈ R) → applyPathLoop R s.tree ps = .ok s'.tree := by
  induction fuel generalizing s with
  | zero => simp [encryptLoop] at h
  | succ fuel ih =>
    unfold encryptLoop at h
    unfold directPathLoop
    by_cases hr : s.tree.isRoot s.childIdx = true
    · rw [if_pos hr] at h
      simp only [isRoot, decide_eq_true_eq] at hr
      cases h
      exact ⟨[], [], [], by simp, by simp, by rw [hr]; simp, rfl, fun R _ => rfl⟩
    · rw [if_neg hr] at h
      simp only [isRoot, decide_eq_true_eq] at hr
      simp only [bind, Except.bind] at h
      split at h
      · simp at h
      · rename_i s1 h1
        obtain ⟨a1, a2, store, rk, a3, a4, a5⟩ := encryptStep_applies h1
        obtain ⟨ps, rk', l, b1, b2, b3, b4, b5⟩ := ih h
        refine ⟨(parent s.childIdx, store) :: ps, rk ++ rk', parent s.childIdx :: l, ?_, ?_, ?_, ?_, ?_⟩
        · rw [b1, a3]; simp
        · rw [b2, a4]; simp
        · rw [if_neg (fun hc => hr (u32_inj hc))]
          rw [a2, a1] at b3
          simp only [new_u32]
          rw [show innerToTree (parent s.childIdx) = (TreeNodeIndex.inner (parent s.childIdx)).u32 from rfl, b3]
          rfl
        · simp [b4]
        · intro R hR
          rw [show (parent s.childIdx, store) :: ps = [(parent s.childIdx, store)] ++ ps from rfl,
            applyPathLoop_append, a5 R (fun k hk => hR k (List.mem_append_left _ hk))]
          exact b5 R (fun k hk => hR k (List.mem_append_right _ hk))

theorem merge_removed {k : NodeKey} {pk : Pk} {R : List Pk} (h : ∀ x ∈ k.keys, x ∈ R) :
    k.merge (.share pk) R = .ok (.share pk) := by
  cases k with
  | share a =>
    have := h a (by simp [NodeKey.keys])
    simp [NodeKey.merge, this]
  | conflict a b more =>
    unfold NodeKey.merge
    have : (NodeKey.conflict a b more).keys.filter (fun k => decide (k ∉ R)) = [] := by
      rw [List.filter_eq_nil_iff]
      intro x hx
      simpa using h x hx
    simp only [this]
    rfl

/-- In every tree, applying the path change of an update gives the updater's tree. -/
theorem encryptPath_applies {t t' : BeeKem} {g : Gen} {c n : Nat} {id : MemberId} {pk : Pk} {sks sks' : ShareKeyMap}
    {k : Sk} {pc : PathChange} (h : t.encryptPath g c id pk sks = .ok (t', sks', n, k, pc)) :
    t.applyPath pc = .ok t' := by
  unfold encryptPath at h
  simp only [bind, Except.bind] at h
  split at h
  · simp at h
  · rename_i i hi
    split at h
    · simp at h
    · rename_i nk hnk
      split at h
      · simp at h
      · rename_i t1 h1
        split at h
        · simp at h
        · split at h
          · simp at h
          · rename_i s hs
            cases h
            obtain ⟨ps, rk, l, a1, a2, a3, a4, a5⟩ := encryptLoop_applies hs
            simp only [List.nil_append] at a1 a2 a3
            have hsz : t1.treeSize = t.treeSize := (insertLeafAt_dims h1).size
            have hget : AMap.get t.idToLeafIdx id = some i := by
              unfold leafIndexForId at hi
              split at hi
              · simp at hi
              · cases hi; assumption
            have hcon : t.containsId id = true := by
              unfold containsId
              rw [AMap.contains_iff, AMap.mem_keys_iff, hget]
              simp
            obtain ⟨lf, hlf, hpk⟩ : ∃ lf, t.leaf i = .ok (some lf) ∧ lf.pk = nk := by
              unfold nodeKeyForId nodeKeyForIndex at hnk
              simp only [hi, bind, Except.bind] at hnk
              split at hnk
              · simp at hnk
              · rename_i o ho
                cases o with
                | none => simp at hnk
                | some lf => exact ⟨lf, ho, by simpa using hnk⟩
            have hval : t.isValidPath { leafId := id, leafIdx := i, leafPk := .share pk, path := s.path, removedKeys := s.removed } = .ok true := by
              unfold isValidPath directPathRes directPath
              simp only [hi, bind, Except.bind]
              rw [hsz] at a3
              rw [a3, a1]
              simp [pure, Except.pure, a4]
            have hm : lf.pk.merge (.share pk) s.removed = .ok (.share pk) := by
              apply merge_removed
              intro x hx
              rw [a2, ← hpk]
              exact List.mem_append_left _ hx
            unfold applyPath
            simp only [hcon, if_true, hi, bind, Except.bind, hval, hlf, hm, h1]
            rw [a1]
            exact a5 _ (by rw [a2]; exact fun x hx => List.mem_append_right _ hx)

end BeeKem

end Verif.BeeKem
