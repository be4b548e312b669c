import Verif.BeeKem.Fit

/-! # Helper lemmas: the fix-up after concurrent membership changes -/

set_option linter.dupNamespace false

namespace Verif.BeeKem

open Verif.TreeMath

namespace BeeKem

/-! ## Whatever the tree: what is blank afterwards -/

/-- Every inner node above leaf `i` is blank. -/
def PathBlank (t : BeeKem) (h i : Nat) : Prop := ∀ j ∈ path h i, t.innerD j = none

theorem PathBlank.mono {t t' : BeeKem} {h i : Nat} (p : PathBlank t h i) (b : BlankOnly t t') : PathBlank t' h i :=
  fun j hj => b j (p j hj)

/-- Nodes above the tree are blank. -/
theorem PathBlank.grow {t : BeeKem} {h i : Nat} (hs : Shape t h) (p : PathBlank t h i) (h' : Nat) : PathBlank t h' i := by
  intro j hj
  by_cases hn : t.innerD j = none
  · exact hn
  · have hlt := innerD_lt hs hn
    obtain ⟨k, _, rfl⟩ := mem_path.1 hj
    exact p _ (mem_path.2 ⟨k, (nodeInner_lt.1 hlt).1, rfl⟩)

theorem PathBlank.root {t : BeeKem} {h i : Nat} (hs : Shape t h) (hi : i < 2 ^ h) (p : PathBlank t h i) :
    t.hasRootKey = .ok false := rootBlank hs (p _ (root_on_path hs.pos hi))

theorem BlankOnly.trans {a b c : BeeKem} (h : BlankOnly a b) (h' : BlankOnly b c) : BlankOnly a c := fun j hj => h' j (h j hj)

theorem blankLeafAndPath_blank {t t' : BeeKem} {h i : Nat} (f : Fit t h) (hr : t.blankLeafAndPath i = .ok t') :
    Fit t' h ∧ BlankOnly t t' ∧ i < 2 ^ h ∧ PathBlank t' h i := by
  obtain ⟨hlt, d, b, _⟩ := blankLeafAndPath_dims hr
  have hlt' : i < 2 ^ h := by rw [← f.shape.leaves]; exact hlt
  obtain ⟨t1, e1, _, _, _, _, i1⟩ := blankLeafAndPath_ok f.shape hlt'
  rw [hr] at e1
  cases e1
  exact ⟨d.fit f, b, hlt', fun j hj => by rw [i1, if_pos hj]⟩

theorem blankRemoved_blank {l : List (MemberId × Nat)} {t t' : BeeKem} {h : Nat} (f : Fit t h)
    (hr : t.blankRemoved l = .ok t') :
    Fit t' h ∧ BlankOnly t t' ∧ ∀ p ∈ l, p.2 < 2 ^ h ∧ PathBlank t' h p.2 := by
  induction l generalizing t with
  | nil => cases hr; exact ⟨f, fun _ => id, by simp⟩
  | cons p l ih =>
    obtain ⟨a, i⟩ := p
    simp only [blankRemoved, bind, Except.bind] at hr
    split at hr
    · simp at hr
    · rename_i t1 h1
      obtain ⟨f1, b1, hi, p1⟩ := blankLeafAndPath_blank f h1
      obtain ⟨f2, b2, p2⟩ := ih f1 hr
      refine ⟨f2, b1.trans b2, ?_⟩
      intro q hq
      rcases List.mem_cons.1 hq with rfl | hq
      · exact ⟨hi, p1.mono b2⟩
      · exact p2 q hq

theorem popLeaves_blank {fuel : Nat} {t t' : BeeKem} {h : Nat} {a : List MemberId} {acc ls : List LeafNode} (f : Fit t h)
    (hr : popLeaves fuel t a acc = .ok (t', ls)) :
    Fit t' h ∧ BlankOnly t t' ∧ (fuel ≠ 0 → a ≠ [] → t.nextLeafIdx ≠ 0 → t'.hasRootKey = .ok false) := by
  induction fuel generalizing t a acc with
  | zero => cases hr; exact ⟨f, fun _ => id, by simp⟩
  | succ fuel ih =>
    unfold popLeaves at hr
    split at hr
    · rename_i hc
      cases hr
      refine ⟨f, fun _ => id, fun _ ha hn => ?_⟩
      rw [Bool.or_eq_true, List.isEmpty_iff, decide_eq_true_eq] at hc
      rcases hc with hc | hc
      · exact absurd hc ha
      · exact absurd hc hn
    · simp only [bind, Except.bind] at hr
      split at hr
      · simp at hr
      · split at hr
        · simp at hr
        · rename_i t1 h1
          obtain ⟨f1, b1, hi, p1⟩ := blankLeafAndPath_blank f h1
          have f1' : Fit { t1 with nextLeafIdx := t.nextLeafIdx - 1 } h := by
            refine ⟨⟨f1.shape.pos, f1.shape.size, f1.shape.leaves, f1.shape.inner⟩, ?_⟩
            have := f.next
            simp only
            omega
          obtain ⟨f2, b2, _⟩ := ih f1' hr
          refine ⟨f2, b1.trans b2, fun _ _ _ => ?_⟩
          exact PathBlank.root f2.shape hi (fun j hj => b2 j (p1 j hj))

theorem pushAll_blank {ls : List LeafNode} {t t' : BeeKem} {h : Nat} (f : Fit t h) (hr : pushAll t ls = .ok t') :
    ∃ h', h ≤ h' ∧ Fit t' h' ∧ BlankOnly t t' := by
  induction ls generalizing t h with
  | nil => cases hr; exact ⟨h, Nat.le_refl _, f, fun _ => id⟩
  | cons l ls ih =>
    simp only [pushAll, bind, Except.bind] at hr
    split at hr
    · simp at hr
    · rename_i p h1
      obtain ⟨t1, i⟩ := p
      obtain ⟨t2, h', e1, s1, hh, h4, h5, _, _, h8⟩ := pushLeaf_ok f.shape f.next l.id l.pk
      rw [h1] at e1
      cases e1
      obtain ⟨h'', a1, a2, a3⟩ := ih ⟨s1, by omega⟩ hr
      refine ⟨h'', by omega, a2, ?_⟩
      intro j hj
      apply a3
      rw [h8]
      split
      · rfl
      · exact hj

/-- After the fix-up every node above a removed member's leaf is blank, and if anything was added or removed, so is the root. -/
theorem sortLeaves_blank {t t' : BeeKem} {h : Nat} {a : List MemberId} {r : List (MemberId × Nat)} (f : Fit t h)
    (hr : t.sortLeavesAndBlankPaths a r = .ok t') :
    ∃ h', h ≤ h' ∧ Fit t' h' ∧ BlankOnly t t' ∧ (∀ p ∈ r, p.2 < 2 ^ h ∧ PathBlank t' h' p.2) ∧
      (r ≠ [] ∨ (a ≠ [] ∧ t.nextLeafIdx ≠ 0) → t'.hasRootKey = .ok false) := by
  unfold sortLeavesAndBlankPaths at hr
  simp only [bind, Except.bind] at hr
  split at hr
  · simp at hr
  · rename_i t1 h1
    split at hr
    · simp at hr
    · rename_i p h2
      obtain ⟨t2, ls⟩ := p
      obtain ⟨f1, b1, p1⟩ := blankRemoved_blank f h1
      obtain ⟨f2, b2, p2⟩ := popLeaves_blank f1 h2
      obtain ⟨h', hh, f3, b3⟩ := pushAll_blank f2 hr
      have hrm : ∀ p ∈ r, p.2 < 2 ^ h ∧ PathBlank t' h' p.2 := fun p hp =>
        ⟨(p1 p hp).1, (((p1 p hp).2.mono b2).grow f2.shape h').mono b3⟩
      refine ⟨h', hh, f3, (b1.trans b2).trans b3, hrm, ?_⟩
      rintro (hne | ⟨hne, hn⟩)
      · obtain ⟨p, r', rfl⟩ := List.exists_cons_of_ne_nil hne
        obtain ⟨g1, g2⟩ := hrm p (by simp)
        exact g2.root f3.shape (Nat.lt_of_lt_of_le g1 (Nat.pow_le_pow_right (by decide) hh))
      · by_cases hre : r = []
        · subst hre
          have ht1 : t1 = t := by
            unfold blankRemoved at h1
            cases h1; rfl
          subst ht1
          have hroot := p2 hn hne hn
          cases ls with
          | nil =>
            have : t' = t2 := by
              unfold isort pushAll at hr
              cases hr; rfl
            rw [this]; exact hroot
          | cons l ls =>
            -- at least one leaf is pushed last, which blanks its path
            refine pushAll_root f2 ?_ hr
            intro hc
            have := congrArg List.length hc
            rw [length_isort] at this
            simp at this
        · obtain ⟨p, r', rfl⟩ := List.exists_cons_of_ne_nil hre
          obtain ⟨g1, g2⟩ := hrm p (by simp)
          exact g2.root f3.shape (Nat.lt_of_lt_of_le g1 (Nat.pow_le_pow_right (by decide) hh))
where
  pushAll_root {ls : List LeafNode} {t t' : BeeKem} {h : Nat} (f : Fit t h) (hne : ls ≠ []) (hr : pushAll t ls = .ok t') :
      t'.hasRootKey = .ok false := by
    induction ls generalizing t h with
    | nil => exact absurd rfl hne
    | cons l ls ih =>
      simp only [pushAll, bind, Except.bind] at hr
      split at hr
      · simp at hr
      · rename_i p h1
        obtain ⟨t1, i⟩ := p
        obtain ⟨⟨h', f'⟩, hb⟩ := pushLeaf_fit f h1
        by_cases hls : ls = []
        · subst hls
          cases hr
          exact hb
        · exact ih f' hls hr

/-! ## With the bookkeeping in order: nobody is lost -/

theorem blankRemoved_ok {t : BeeKem} {h : Nat} (w : SInv t h) (l : List (MemberId × Nat))
    (hl : ∀ p ∈ l, p.2 < 2 ^ h ∧ t.leafD p.2 = none) :
    ∃ t', t.blankRemoved l = .ok t' ∧ SInv t' h ∧ t'.idToLeafIdx = t.idToLeafIdx ∧ t'.nextLeafIdx = t.nextLeafIdx ∧
      ∀ j, t'.leafD j = t.leafD j := by
  induction l generalizing t with
  | nil => exact ⟨t, rfl, w, rfl, rfl, fun _ => rfl⟩
  | cons p l ih =>
    obtain ⟨a, i⟩ := p
    obtain ⟨hi, hn⟩ := hl (a, i) (by simp)
    obtain ⟨t1, e1, s1, n1, id1, l1, i1⟩ := blankLeafAndPath_ok w.shape hi
    have hleaf : ∀ j, t1.leafD j = t.leafD j := by
      intro j
      rw [l1]
      split
      · rename_i hj; rw [hj]; exact hn.symm
      · rfl
    have w1 : SInv t1 h := by
      refine ⟨⟨s1, by rw [n1]; exact w.next, ?_, by rw [id1]; exact w.wf, ?_, ?_⟩, ?_⟩
      · intro j hj; rw [hleaf]; exact w.tail j (by omega)
      · intro id k hk; rw [id1] at hk; rw [hleaf]; exact w.ids id k hk
      · intro j s hj
        rw [i1] at hj
        split at hj
        · simp at hj
        · exact w.vers j s hj
      · intro k l hk; rw [hleaf] at hk; rw [id1]; exact w.back k l hk
    obtain ⟨t2, e2, w2, id2, n2, l2⟩ := ih w1 (fun p hp => by
      rw [hleaf]; exact hl p (List.mem_cons_of_mem _ hp))
    refine ⟨t2, ?_, w2, id2.trans id1, n2.trans n1, fun j => (l2 j).trans (hleaf j)⟩
    simp only [blankRemoved, e1, bind, Except.bind, e2]

/-- State of the loop that pops leaves, started at `t0`. -/
structure Pop (t0 t : BeeKem) (h : Nat) (acc : List LeafNode) : Prop where
  shape : Shape t h
  le : t.nextLeafIdx ≤ t0.nextLeafIdx
  low : ∀ j, j < t.nextLeafIdx → t.leafD j = t0.leafD j
  high : ∀ j, t.nextLeafIdx ≤ j → t.leafD j = none
  ids : t.idToLeafIdx = t0.idToLeafIdx
  mem : ∀ l, l ∈ acc ↔ ∃ j, t.nextLeafIdx ≤ j ∧ t0.leafD j = some l
  nodup : (acc.map (·.id)).Nodup
  inner : ∀ j s, t.innerD j = some s → t0.innerD j = some s

theorem popLeaves_ok {t0 : BeeKem} {h : Nat} (w : SInv t0 h) (fuel : Nat) : ∀ (t : BeeKem) (added : List MemberId)
    (acc : List LeafNode), Pop t0 t h acc → t.nextLeafIdx ≤ fuel →
    ∃ t' acc', popLeaves fuel t added acc = .ok (t', acc') ∧ Pop t0 t' h acc' ∧ (∀ l ∈ acc, l ∈ acc') ∧
      ((∀ id ∈ added, ∃ l ∈ acc', l.id = id) ∨ t'.nextLeafIdx = 0) := by
  induction fuel with
  | zero =>
    intro t added acc p hf
    exact ⟨t, acc, rfl, p, fun _ => id, .inr (by omega)⟩
  | succ fuel ih =>
    intro t added acc p hf
    unfold popLeaves
    by_cases hc : (added.isEmpty || decide (t.nextLeafIdx = 0)) = true
    · rw [if_pos hc]
      refine ⟨t, acc, rfl, p, fun _ => id, ?_⟩
      rw [Bool.or_eq_true, List.isEmpty_iff, decide_eq_true_eq] at hc
      rcases hc with rfl | hc
      · exact .inl (by simp)
      · exact .inr hc
    · rw [if_neg hc]
      rw [Bool.or_eq_true, List.isEmpty_iff, decide_eq_true_eq, not_or] at hc
      obtain ⟨_, hn⟩ := hc
      have hlt : t.nextLeafIdx - 1 < 2 ^ h := by
        have := w.next; have := p.le; omega
      obtain ⟨t1, e1, s1, n1, id1, l1, i1⟩ := blankLeafAndPath_ok p.shape hlt
      have hlow := p.low (t.nextLeafIdx - 1) (by omega)
      have key : ∀ acc', (∀ l, l ∈ acc' ↔ l ∈ acc ∨ t0.leafD (t.nextLeafIdx - 1) = some l) → (acc'.map (·.id)).Nodup →
          Pop t0 { t1 with nextLeafIdx := t.nextLeafIdx - 1 } h acc' := by
        intro acc' hm hnd
        refine ⟨⟨s1.pos, s1.size, s1.leaves, s1.inner⟩, ?_, ?_, ?_, ?_, ?_, hnd, ?_⟩
        · have := p.le; simp only; omega
        · intro j hj
          simp only at hj
          show t1.leafD j = _
          rw [l1, if_neg (by omega)]
          exact p.low j (by omega)
        · intro j hj
          simp only at hj
          show t1.leafD j = _
          rw [l1]
          split
          · rfl
          · exact p.high j (by omega)
        · exact id1.trans p.ids
        · intro l
          rw [hm, p.mem]
          simp only
          constructor
          · rintro (⟨j, hj, h2⟩ | h2)
            · exact ⟨j, by omega, h2⟩
            · exact ⟨_, Nat.le_refl _, h2⟩
          · rintro ⟨j, hj, h2⟩
            by_cases hje : j = t.nextLeafIdx - 1
            · right; rw [← hje]; exact h2
            · left; exact ⟨j, by omega, h2⟩
        · intro j s hj
          have : t1.innerD j = some s := hj
          rw [i1] at this
          split at this
          · simp at this
          · exact p.inner j s this
      have hleaf := (leaf_ok p.shape hlt).trans (congrArg Except.ok hlow)
      cases hl : t0.leafD (t.nextLeafIdx - 1) with
      | none =>
        simp only [hleaf, hl, bind, Except.bind, pure, Except.pure, e1]
        obtain ⟨t', acc', g1, g2, g3, g4⟩ := ih _ added acc (key acc (by simp [hl]) p.nodup) (by simp only; omega)
        exact ⟨t', acc', g1, g2, g3, g4⟩
      | some l =>
        simp only [hleaf, hl, bind, Except.bind, pure, Except.pure, e1]
        have hk := key (acc ++ [l]) (by
            intro x
            rw [hl, List.mem_append, List.mem_singleton, Option.some.injEq]
            constructor
            · rintro (h1 | h1)
              · exact .inl h1
              · exact .inr h1.symm
            · rintro (h1 | h1)
              · exact .inl h1
              · exact .inr h1.symm) (by
            rw [List.map_append, List.nodup_append]
            refine ⟨p.nodup, by simp, ?_⟩
            intro x hx y hy hxy
            simp only [List.map_cons, List.map_nil, List.mem_singleton] at hy
            subst hy
            subst hxy
            obtain ⟨l', hl', he⟩ := List.mem_map.1 hx
            obtain ⟨j, hj, h2⟩ := (p.mem l').1 hl'
            have b1 := w.back _ _ hl
            have b2 := w.back _ _ h2
            rw [he, b1] at b2
            simp only [Option.some.injEq] at b2
            omega)
        obtain ⟨t', acc', g1, g2, g3, g4⟩ := ih _ (sremove added l.id) (acc ++ [l]) hk (by simp only; omega)
        refine ⟨t', acc', g1, g2, fun x hx => g3 x (by simp [hx]), ?_⟩
        rcases g4 with g4 | g4
        · left
          intro id hid
          by_cases he : id = l.id
          · exact ⟨l, g3 l (by simp), he.symm⟩
          · exact g4 id ((mem_sremove _ _ _).2 ⟨he, hid⟩)
        · exact .inr g4

/-- State of the loop that pushes the popped leaves back; `rest` is still to come. -/
structure Push (t0 t : BeeKem) (h : Nat) (rest : List LeafNode) : Prop where
  shape : Shape t h
  next : t.nextLeafIdx ≤ 2 ^ h
  tail : ∀ j, t.nextLeafIdx ≤ j → t.leafD j = none
  wf : AMap.WF t.idToLeafIdx
  leaf : ∀ i l, t.leafD i = some l → AMap.get t.idToLeafIdx l.id = some i ∧ (∃ j, t0.leafD j = some l) ∧ ∀ r ∈ rest, r.id ≠ l.id
  keys : ∀ id, AMap.get t.idToLeafIdx id ≠ none ↔ AMap.get t0.idToLeafIdx id ≠ none
  all : ∀ j l, t0.leafD j = some l → l ∈ rest ∨ ∃ i, t.leafD i = some l
  src : ∀ r ∈ rest, ∃ j, t0.leafD j = some r
  nodup : (rest.map (·.id)).Nodup
  inner : ∀ j s, t.innerD j = some s → t0.innerD j = some s

theorem pushAll_ok {t0 : BeeKem} {h0 : Nat} (w : SInv t0 h0) : ∀ (rest : List LeafNode) (t : BeeKem) (h : Nat),
    Push t0 t h rest → ∃ t' h', pushAll t rest = .ok t' ∧ h ≤ h' ∧ Push t0 t' h' [] ∧
      (∀ i, PathBlank t h i → PathBlank t' h' i) ∧
      (∀ l ∈ rest, ∃ i, t'.leafD i = some l ∧ PathBlank t' h' i) ∧ ∀ i l, t.leafD i = some l → t'.leafD i = some l := by
  intro rest
  induction rest with
  | nil => intro t h p; exact ⟨t, h, rfl, Nat.le_refl _, p, fun _ => id, by simp, fun _ _ => id⟩
  | cons r rest ih =>
    intro t h p
    obtain ⟨t1, h1, e1, s1, hh, hlt, n1, id1, l1, i1⟩ := pushLeaf_ok p.shape p.next r.id r.pk
    have hnd : r.id ∉ rest.map (·.id) ∧ (rest.map (·.id)).Nodup := List.nodup_cons.1 p.nodup
    have p1 : Push t0 t1 h1 rest := by
      refine ⟨s1, by omega, ?_, by rw [id1]; exact AMap.wf_insert p.wf _ _, ?_, ?_, ?_, fun x hx => p.src x (by simp [hx]),
        hnd.2, ?_⟩
      · intro j hj
        rw [l1, if_neg (by omega)]
        exact p.tail j (by omega)
      · intro i l hil
        rw [l1] at hil
        rw [id1, AMap.get_insert]
        split at hil
        · rename_i hi
          cases hil
          refine ⟨by simp [hi], p.src r (by simp), ?_⟩
          intro x hx he
          exact hnd.1 (List.mem_map.2 ⟨x, hx, he⟩)
        · obtain ⟨a1, a2, a3⟩ := p.leaf i l hil
          refine ⟨?_, a2, fun x hx => a3 x (by simp [hx])⟩
          rw [if_neg (fun he => a3 r (by simp) he.symm)]
          exact a1
      · intro id
        rw [id1, AMap.get_insert]
        split
        · rename_i he
          obtain ⟨j, hj⟩ := p.src r (by simp)
          have := w.back j r hj
          rw [he, this]
          simp
        · exact p.keys id
      · intro j l hj
        rcases p.all j l hj with h2 | ⟨i, h2⟩
        · rcases List.mem_cons.1 h2 with rfl | h2
          · right
            exact ⟨t.nextLeafIdx, by rw [l1, if_pos rfl]⟩
          · exact .inl h2
        · right
          refine ⟨i, ?_⟩
          rw [l1, if_neg, h2]
          intro he
          rw [he, p.tail _ (Nat.le_refl _)] at h2
          simp at h2
      · intro j s hj
        rw [i1] at hj
        split at hj
        · simp at hj
        · exact p.inner j s hj
    obtain ⟨t2, h2, e2, hh2, p2, b2, r2, k2⟩ := ih t1 h1 p1
    have hb1 : BlankOnly t t1 := by
      intro j hj
      rw [i1]
      split
      · rfl
      · exact hj
    refine ⟨t2, h2, ?_, by omega, p2, fun i hi => b2 i ((hi.grow p.shape h1).mono hb1), ?_, ?_⟩
    · simp only [pushAll, e1, bind, Except.bind, e2]
    · intro l hl
      rcases List.mem_cons.1 hl with rfl | hl
      · refine ⟨t.nextLeafIdx, k2 _ _ (by rw [l1, if_pos rfl]), b2 _ (fun j hj => by rw [i1, if_pos hj])⟩
      · exact r2 l hl
    · intro i l hil
      apply k2
      rw [l1, if_neg, hil]
      intro he
      rw [he, p.tail _ (Nat.le_refl _)] at hil
      simp at hil

/-- With the bookkeeping in order and the leaves of the removed members blank, the fix-up succeeds, keeps every member with its
key, keeps the bookkeeping in order, and leaves no key above an added member. -/
theorem sortLeaves_ok {t : BeeKem} {h : Nat} (w : SInv t h) (added : List MemberId) (removed : List (MemberId × Nat))
    (hl : ∀ p ∈ removed, p.2 < 2 ^ h ∧ t.leafD p.2 = none) :
    ∃ t' h', t.sortLeavesAndBlankPaths added removed = .ok t' ∧ SInv t' h' ∧
      (∀ l, (∃ i, t'.leafD i = some l) ↔ ∃ i, t.leafD i = some l) ∧ (∀ id, t'.containsId id = t.containsId id) ∧
      ∀ id ∈ added, (∀ p ∈ removed, p.1 ≠ id) → ∀ i l, t'.leafD i = some l → l.id = id → PathBlank t' h' i := by
  obtain ⟨t1, e1, w1, id1, n1, l1⟩ := blankRemoved_ok w removed hl
  obtain ⟨t2, acc, e2, p2, _, hadd⟩ := popLeaves_ok w1 t1.nextLeafIdx t1 (removed.foldl (fun a r => sremove a r.1) added) []
    ⟨w1.shape, Nat.le_refl _, fun _ _ => rfl, w1.tail, rfl, by
      intro l
      simp only [List.not_mem_nil, false_iff, not_exists, not_and]
      intro j hj hc
      rw [w1.tail j hj] at hc
      simp at hc, by simp, fun _ _ => id⟩ (Nat.le_refl _)
  have hmem : ∀ r, r ∈ isort (fun a b => decide (a.id ≤ b.id)) acc ↔ r ∈ acc := fun r => mem_isort
  obtain ⟨t3, h3, e3, hh, p3, b3, r3, k3⟩ := pushAll_ok w1 (isort (fun a b => decide (a.id ≤ b.id)) acc) t2 h
    ⟨p2.shape, by have := p2.le; have := w1.next; omega, p2.high, by rw [p2.ids]; exact w1.wf, by
      intro i l hil
      have hlt : i < t2.nextLeafIdx := by
        by_contra hc
        rw [p2.high i (by omega)] at hil
        simp at hil
      rw [p2.low i hlt] at hil
      refine ⟨by rw [p2.ids]; exact w1.back i l hil, ⟨i, hil⟩, ?_⟩
      intro r hr he
      obtain ⟨j, hj, h2⟩ := (p2.mem r).1 ((hmem r).1 hr)
      have b1 := w1.back _ _ hil
      have b2 := w1.back _ _ h2
      rw [he, b1] at b2
      simp only [Option.some.injEq] at b2
      omega, by rw [p2.ids]; exact fun _ => Iff.rfl, by
      intro j l hj
      by_cases hlt : j < t2.nextLeafIdx
      · exact .inr ⟨j, by rw [p2.low j hlt]; exact hj⟩
      · exact .inl ((hmem l).2 ((p2.mem l).2 ⟨j, by omega, hj⟩)), by
      intro r hr
      obtain ⟨j, _, h2⟩ := (p2.mem r).1 ((hmem r).1 hr)
      exact ⟨j, h2⟩, ((isort_perm acc).map _).nodup_iff.2 p2.nodup, p2.inner⟩
  have hsame : ∀ l, (∃ i, t3.leafD i = some l) ↔ ∃ i, t1.leafD i = some l := by
    intro l
    constructor
    · rintro ⟨i, hi⟩; exact (p3.leaf i l hi).2.1
    · rintro ⟨i, hi⟩
      rcases p3.all i l hi with h2 | h2
      · simp at h2
      · exact h2
  have w3 : SInv t3 h3 := by
    refine ⟨⟨p3.shape, p3.next, p3.tail, p3.wf, ?_, fun j s hj => w1.vers j s (p3.inner j s hj)⟩,
      fun i l hil => (p3.leaf i l hil).1⟩
    intro id i hi
    have hne := (p3.keys id).1 (by rw [hi]; simp)
    obtain ⟨k, hk⟩ := Option.ne_none_iff_exists'.1 hne
    obtain ⟨l, hl1, hl2⟩ := w1.ids id k hk
    obtain ⟨i', hi'⟩ := (hsame l).2 ⟨k, hl1⟩
    have := (p3.leaf i' l hi').1
    rw [hl2, hi] at this
    simp only [Option.some.injEq] at this
    subst this
    exact ⟨l, hi', hl2⟩
  refine ⟨t3, h3, ?_, w3, ?_, ?_, ?_⟩
  · simp only [sortLeavesAndBlankPaths, e1, bind, Except.bind, e2, e3]
  · intro l
    rw [hsame]
    simp only [l1]
  · intro id
    have := p3.keys id
    rw [id1] at this
    unfold containsId AMap.contains
    cases hx : AMap.get t3.idToLeafIdx id <;> cases hy : AMap.get t.idToLeafIdx id <;> simp_all
  · intro id hid hnr i l hil hlid
    have hin : id ∈ removed.foldl (fun a r => sremove a r.1) added := by
      clear e1 e2 hadd hl
      induction removed generalizing added with
      | nil => exact hid
      | cons p ps ihp =>
        rw [List.foldl_cons]
        refine ihp _ ((mem_sremove _ _ _).2 ⟨fun he => hnr p (by simp) he.symm, hid⟩) (fun q hq => hnr q (by simp [hq]))
    have hlacc : l ∈ acc := by
      rcases hadd with h1 | h1
      · obtain ⟨l', h2, h3⟩ := h1 id hin
        obtain ⟨j, _, h4⟩ := (p2.mem l').1 h2
        obtain ⟨j', h5⟩ := (p3.leaf i l hil).2.1
        have b1 := w1.back _ _ h4
        have b2 := w1.back _ _ h5
        rw [hlid] at b2
        rw [h3, b2] at b1
        cases b1
        rw [h4] at h5
        cases h5
        exact h2
      · obtain ⟨j', h5⟩ := (p3.leaf i l hil).2.1
        exact (p2.mem l).2 ⟨j', by omega, h5⟩
    obtain ⟨i', h6, h7⟩ := r3 l ((hmem l).2 hlacc)
    have b1 := w3.back _ _ h6
    have b2 := w3.back _ _ hil
    rw [b1] at b2
    cases b2
    exact h7

end BeeKem

end Verif.BeeKem
