import Verif.BeeKem.Decrypt
import Verif.BeeKem.Spec

/-! # Helper lemmas: runs without concurrency and secrecy -/

set_option linter.dupNamespace false

namespace Verif.BeeKem

open Verif.TreeMath Verif.BeeKem.Spec

namespace BeeKem

theorem join_some {α : Type} {o : Option (Option α)} {x : α} : o.join = some x ↔ o = some (some x) := by
  cases o with
  | none => simp
  | some o => simp

theorem leafAt_iff {t : BeeKem} {i : Nat} {l : LeafNode} : LeafAt t i l ↔ t.leafD i = some l := by
  unfold LeafAt leafD
  rw [join_some]

/-- Any inner index is some `(level, position)`. -/
theorem exists_nodeInner (j : Nat) : ∃ k m, j = nodeInner k m := by
  obtain ⟨k, m, h⟩ := inner_exists_node j
  exact ⟨k, m, innerToTree_inj (by rw [h, innerToTree_nodeInner])⟩

theorem keyD_inner {t : BeeKem} {k m : Nat} {st : SecretStore} (h : t.innerD (nodeInner k m) = some st)
    (hv : st.versions ≠ []) : ∃ nk, t.keyD (k + 1) m = some nk ∧ nk.keys = st.versions.map (·.pk) := by
  obtain ⟨nk, h1, h2⟩ := nodeKey_keys hv
  exact ⟨nk, by simp [keyD, h, h1, Except.toOption], h2⟩

theorem present_iff {t : BeeKem} (hv : ∀ j s, t.innerD j = some s → s.versions ≠ []) {s : Sk} :
    Present t s ↔ ∃ k m, HasSecret t k m s := by
  constructor
  · rintro (⟨i, l, hl, hk⟩ | ⟨j, st, hj, v, hv', hp⟩)
    · exact ⟨0, i, l.pk, by simp [keyD, leafAt_iff.1 hl], hk⟩
    · obtain ⟨k, m, rfl⟩ := exists_nodeInner j
      have hj' : t.innerD (nodeInner k m) = some st := by unfold innerD; rw [hj]; rfl
      obtain ⟨nk, h1, h2⟩ := keyD_inner hj' (hv _ _ hj')
      exact ⟨k + 1, m, nk, h1, by rw [h2, ← hp]; exact List.mem_map_of_mem hv'⟩
  · rintro ⟨k, m, nk, hk, hs⟩
    cases k with
    | zero =>
      left
      cases hl : t.leafD m with
      | none => simp [keyD, hl] at hk
      | some l =>
        simp only [keyD, hl, Option.map_some, Option.some.injEq] at hk
        exact ⟨m, l, leafAt_iff.2 hl, by rw [hk]; exact hs⟩
    | succ k =>
      right
      cases hl : t.innerD (nodeInner k m) with
      | none => simp [keyD, hl] at hk
      | some st =>
        obtain ⟨nk', h1, h2⟩ := keyD_inner hl (hv _ _ hl)
        rw [hk] at h1
        simp only [Option.some.injEq] at h1
        subst h1
        rw [h2] at hs
        obtain ⟨v, hv', hp⟩ := List.mem_map.1 hs
        refine ⟨nodeInner k m, st, ?_, v, hv', hp⟩
        unfold innerD at hl
        exact join_some.1 hl

theorem Same.has {t t' : BeeKem} {k m : Nat} {s : Sk} (h : Same t t' k m) (hs : HasSecret t' k m s) :
    HasSecret t k m s := by
  obtain ⟨nk, h1, h2⟩ := hs
  exact ⟨nk, by rw [h.key]; exact h1, h2⟩

theorem present_of_below {t : BeeKem} (hv : ∀ j s, t.innerD j = some s → s.versions ≠ []) {k m : Nat}
    {s : Sk} (h : PresentBelow t k m s) : Present t s := by
  obtain ⟨k', m', _, _, hs⟩ := h
  exact (present_iff hv).2 ⟨k', m', hs⟩

theorem inner_of_has {t : BeeKem} {k m : Nat} {s : Sk} (h : HasSecret t (k + 1) m s) :
    t.innerD (nodeInner k m) ≠ none := by
  obtain ⟨nk, h1, _⟩ := h
  intro hc
  simp [keyD, hc] at h1

/-- After blanking, an inner secret that is still there has an unchanged subtree. -/
theorem Blanked.has {t t' : BeeKem} {h' : Nat} {B : List Nat} (hs : Shape t' h')
    (hb : Blanked t t' h' B) {k m : Nat} {s : Sk} (h : HasSecret t' (k + 1) m s) :
    SameBelow t t' (k + 1) m ∧ HasSecret t (k + 1) m s := by
  have hsb := hb.sameBelow hs (inner_of_has h)
  exact ⟨hsb, hsb.self.has h⟩

theorem Sole.has {t : BeeKem} {k m : Nat} {s : Sk} (h : Sole t k m s) : HasSecret t k m s := ⟨_, h, by simp [NodeKey.keys]⟩

theorem Blanked.sole {t t' : BeeKem} {h' : Nat} {B : List Nat} (hs : Shape t' h')
    (hb : Blanked t t' h' B) {k m : Nat} {s : Sk} (h : Sole t' (k + 1) m s) :
    SameBelow t t' (k + 1) m ∧ Sole t (k + 1) m s := by
  have hsb := hb.sameBelow hs (inner_of_has h.has)
  exact ⟨hsb, hsb.self.key.trans h⟩

/-- `remove_id` in any tree built by tree operations. -/
theorem removeId_cases (t : BeeKem) (id : MemberId) :
    (t.memberCount = 1 ∧ t.removeId id = .error .removeLastMember) ∨
    (t.memberCount ≠ 1 ∧ AMap.get t.idToLeafIdx id = none ∧ t.removeId id = .error .identifierNotFound) ∨
    (∃ i, t.memberCount ≠ 1 ∧ AMap.get t.idToLeafIdx id = some i) := by
  by_cases h1 : t.memberCount = 1
  · exact Or.inl ⟨h1, by unfold removeId; rw [if_pos h1]⟩
  · cases hg : AMap.get t.idToLeafIdx id with
    | none =>
      right; left
      refine ⟨h1, rfl, ?_⟩
      unfold removeId leafIndexForId
      rw [if_neg h1]
      simp [hg, bind, Except.bind]
    | some i => exact Or.inr (Or.inr ⟨i, h1, rfl⟩)

/-! ## The world invariant -/

structure SecInv (g : Gen) (w : World) : Prop where
  tree : w.tree ∈ w.trees
  sinv : ∃ h, SInv w.tree h
  good : Good w.tree
  held : ∀ n, w.Held (g n) → n < w.rng
  leaf : ∀ m s, HasSecret w.tree 0 m s → NotGen g s
  inner : ∀ k m s, HasSecret w.tree (k + 1) m s → ∃ n, n < w.rng ∧ s = g n
  uniq : ∀ k m k' m' s, HasSecret w.tree (k + 1) m s → HasSecret w.tree (k' + 1) m' s → k = k' ∧ m = m'
  pub : ∀ c ∈ w.pub, ∃ n, n < w.rng ∧ c.plain = g n ∧ w.Held (g n)
  pos : ∀ c ∈ w.pub, ∀ k m, HasSecret w.tree (k + 1) m c.plain →
    ∃ a b, c.key = deriveSymmetricKey a ⟨b⟩ ∧ PresentBelow w.tree (k + 1) m a ∧
      (PresentBelow w.tree (k + 1) m b ∨ ∃ n, n < w.rng ∧ b = g n ∧ ¬ w.Held (g n))

theorem secInv_start {g : Gen} {w : World} (hw : Start g w) : SecInv g w := by
  obtain ⟨hng, hnew⟩ := hw
  rename_i id sk t rng
  obtain ⟨t', h1, h2, h3, h4, h5, h6, h7⟩ := new_ok id ⟨sk⟩
  rw [hnew] at h1
  simp only [Except.ok.injEq] at h1
  subst h1
  have hleaf : ∀ m s, HasSecret t 0 m s → s = sk := by
    rintro m s ⟨nk, h8, h9⟩
    simp only [keyD, h6] at h8
    split at h8
    · simp only [Option.map_some, Option.some.injEq] at h8
      subst h8
      simpa [NodeKey.keys] using h9
    · simp at h8
  refine ⟨by simp, ⟨1, h2⟩, h3, ?_, ?_, fun k m s hs => absurd (h7 _) (inner_of_has hs), ?_, by simp, by simp⟩
  · rintro n ⟨t', ht', hp⟩
    simp only [List.mem_singleton] at ht'
    subst ht'
    obtain ⟨k, m, hs⟩ := (present_iff h3.single.inner).1 hp
    cases k with
    | zero => exact absurd (hleaf m _ hs).symm (hng n)
    | succ k => exact absurd (h7 _) (inner_of_has hs)
  · intro m s hs
    rw [hleaf m s hs]; exact hng
  · intro k m k' m' s hs _
    exact absurd (h7 _) (inner_of_has hs)

/-- Steps that only blank nodes and possibly fill leaves with keys from outside the CSPRNG. -/
theorem SecInv.blank {g : Gen} {w : World} (I : SecInv g w) {t : BeeKem} {h' : Nat} {B : List Nat}
    (sv : SInv t h') (hb : Blanked w.tree t h' B)
    (hl : ∀ i l, t.leafD i = some l → w.tree.leafD i = some l ∨ ∃ s, l.pk = .share ⟨s⟩ ∧ NotGen g s) :
    SecInv g { w with tree := t, trees := t :: w.trees } := by
  have hsl : ∀ i l, t.leafD i = some l → ∃ s, l.pk = .share ⟨s⟩ := by
    intro i l hil
    rcases hl i l hil with h1 | ⟨s, h1, _⟩
    · exact I.good.single.leaf i l h1
    · exact ⟨s, h1⟩
  have hgood : Good t := I.good.blank sv.shape hb hsl
  have hleaf : ∀ m s, HasSecret t 0 m s → NotGen g s := by
    rintro m s ⟨nk, h1, h2⟩
    cases hlm : t.leafD m with
    | none => simp [keyD, hlm] at h1
    | some l =>
      simp only [keyD, hlm, Option.map_some, Option.some.injEq] at h1
      subst h1
      rcases hl m l hlm with h3 | ⟨s', h3, h4⟩
      · exact I.leaf m s ⟨l.pk, by simp [keyD, h3], h2⟩
      · rw [h3] at h2
        simp only [NodeKey.keys, List.mem_singleton, Pk.mk.injEq] at h2
        rw [h2]; exact h4
  have hheld : ∀ n, World.Held { w with tree := t, trees := t :: w.trees } (g n) → w.Held (g n) := by
    rintro n ⟨t', ht', hp⟩
    rcases List.mem_cons.1 ht' with rfl | ht'
    · obtain ⟨k, m, hs⟩ := (present_iff hgood.single.inner).1 hp
      cases k with
      | zero => exact absurd rfl (hleaf m _ hs n)
      | succ k =>
        exact ⟨w.tree, I.tree, (present_iff I.good.single.inner).2 ⟨_, _, (hb.has sv.shape hs).2⟩⟩
    · exact ⟨t', ht', hp⟩
  refine ⟨by simp, ⟨h', sv⟩, hgood, fun n hn => I.held n (hheld n hn), hleaf,
    fun k m s h1 => I.inner k m s (hb.has sv.shape h1).2, fun k m k' m' s h1 h2 => I.uniq k m k' m' s (hb.has sv.shape h1).2 (hb.has sv.shape h2).2, ?_, ?_⟩
  · intro c hc
    obtain ⟨n, h1, h2, t', h3, h4⟩ := I.pub c hc
    exact ⟨n, h1, h2, t', List.mem_cons_of_mem _ h3, h4⟩
  · intro c hc k m hs
    obtain ⟨hsb, hs'⟩ := hb.has sv.shape hs
    obtain ⟨a, b, hk, ha, hb'⟩ := I.pos c hc k m hs'
    refine ⟨a, b, hk, ha.congr hsb, ?_⟩
    rcases hb' with hb' | ⟨n, h1, h2, h3⟩
    · exact Or.inl (hb'.congr hsb)
    · exact Or.inr ⟨n, h1, h2, fun hc => h3 (hheld n hc)⟩

/-- What one step does, for use in the theorems. -/
structure StepRes (g : Gen) (w w' : World) : Prop where
  inv : SecInv g w'
  rng : w.rng ≤ w'.rng
  pubNew : ∀ c ∈ w'.pub, c ∈ w.pub ∨ ∃ n, w.rng ≤ n ∧ c.plain = g n
  heldOld : ∀ n, n < w.rng → w'.Held (g n) → w.Held (g n)
  heldMono : ∀ s, w.Held s → w'.Held s
  pubMono : ∀ c ∈ w.pub, c ∈ w'.pub
  presentOld : ∀ n, n < w.rng → Present w'.tree (g n) → Present w.tree (g n)

theorem step_res {g : Gen} (hf : Fresh g) {w w' : World} (I : SecInv g w) (hst : Step g w w') :
    StepRes g w w' := by
  obtain ⟨h, sv⟩ := I.sinv
  cases hst with
  | @add id sk t i hnc hng hp =>
    obtain ⟨t', h', h1, h2, _, _, h5, h6, h7⟩ := pushLeaf_full sv.toWInv id (.share ⟨sk⟩)
    rw [hp] at h1
    simp only [Except.ok.injEq, Prod.mk.injEq] at h1
    obtain ⟨rfl, rfl⟩ := h1
    have hnone : AMap.get w.tree.idToLeafIdx id = none := by
      unfold containsId AMap.contains at hnc
      simpa using hnc
    have sv' := pushLeaf_strong sv (.share ⟨sk⟩) hnone h2 h5 h6
    have I' : SecInv g { w with tree := t, trees := t :: w.trees } := by
      refine I.blank sv' h7 ?_
      intro j l hj
      rw [h6] at hj
      split at hj
      · simp only [Option.some.injEq] at hj
        subst hj
        exact Or.inr ⟨sk, rfl, hng⟩
      · exact Or.inl hj
    have hpo : ∀ n, Present t (g n) → Present w.tree (g n) := by
      intro n hpr
      obtain ⟨k, m, hs⟩ := (present_iff I'.good.single.inner).1 hpr
      cases k with
      | zero => exact absurd rfl (I'.leaf m _ hs n)
      | succ k => exact (present_iff I.good.single.inner).2 ⟨_, _, (h7.has sv'.shape hs).2⟩
    refine ⟨I', Nat.le_refl _, fun c hc => Or.inl hc, ?_, fun s ⟨t', a, b⟩ => ⟨t', List.mem_cons_of_mem _ a, b⟩, fun c hc => hc, fun n _ h => hpo n h⟩
    rintro n _ ⟨t', ht', hpr⟩
    rcases List.mem_cons.1 ht' with rfl | ht'
    · exact ⟨w.tree, I.tree, hpo n hpr⟩
    · exact ⟨t', ht', hpr⟩
  | @remove id t i removed hr =>
    have hlen : w.tree.memberCount ≠ 1 := by
      intro hc
      unfold removeId at hr
      rw [if_pos hc] at hr
      simp at hr
    obtain ⟨i', hid⟩ : ∃ i', AMap.get w.tree.idToLeafIdx id = some i' := by
      cases hg : AMap.get w.tree.idToLeafIdx id with
      | some i' => exact ⟨i', rfl⟩
      | none =>
        unfold removeId leafIndexForId at hr
        rw [if_neg hlen] at hr
        simp [hg, bind, Except.bind] at hr
    obtain ⟨t', B, h1, h2, h3, h4, h5, h6, h7⟩ := removeId_ok sv.toWInv hid hlen
    rw [hr] at h1
    simp only [Except.ok.injEq, Prod.mk.injEq] at h1
    obtain ⟨rfl, rfl, rfl⟩ := h1
    have sv' := removeId_strong sv hid h2 h3 h4
    have I' : SecInv g { w with tree := t, trees := t :: w.trees } := by
      refine I.blank sv' h7 ?_
      intro j l hj
      rw [h4] at hj
      split at hj
      · simp at hj
      · exact Or.inl hj
    have hpo : ∀ n, Present t (g n) → Present w.tree (g n) := by
      intro n hpr
      obtain ⟨k, m, hs⟩ := (present_iff I'.good.single.inner).1 hpr
      cases k with
      | zero => exact absurd rfl (I'.leaf m _ hs n)
      | succ k => exact (present_iff I.good.single.inner).2 ⟨_, _, (h7.has sv'.shape hs).2⟩
    refine ⟨I', Nat.le_refl _, fun c hc => Or.inl hc, ?_, fun s ⟨t', a, b⟩ => ⟨t', List.mem_cons_of_mem _ a, b⟩, fun c hc => hc, fun n _ h => hpo n h⟩
    rintro n _ ⟨t', ht', hpr⟩
    rcases List.mem_cons.1 ht' with rfl | ht'
    · exact ⟨w.tree, I.tree, hpo n hpr⟩
    · exact ⟨t', ht', hpr⟩
  | @update id sk sks t sks' rng r pc hng hsk he =>
    obtain ⟨i, hid⟩ : ∃ i', AMap.get w.tree.idToLeafIdx id = some i' := by
      cases hg : AMap.get w.tree.idToLeafIdx id with
      | some i' => exact ⟨i', rfl⟩
      | none =>
        unfold encryptPath leafIndexForId at he
        simp [hg, bind, Except.bind] at he
    have hi := sv.lt hid
    obtain ⟨l, hl, _⟩ := sv.ids id i hid
    obtain ⟨s', newp, ν, h1, R⟩ := encryptPath_ok g w.rng sv.shape I.good.single hi hid hl hsk
    rw [he] at h1
    simp only [Except.ok.injEq, Prod.mk.injEq] at h1
    obtain ⟨rfl, rfl, rfl, rfl, rfl⟩ := h1
    obtain ⟨sv', good', hL⟩ := encryptPath_inv g w.rng sv I.good hid R
    have hrng : w.rng ≤ s'.rng := R.rng
    -- where a secret sits in the new tree
    have hwhere : ∀ k m s, HasSecret s'.tree (k + 1) m s →
        (∃ l', l' < h ∧ k = l' ∧ m = i / 2 ^ (l' + 1) ∧ s = g (ν l')) ∨
        (SameBelow w.tree s'.tree (k + 1) m ∧ HasSecret w.tree (k + 1) m s) := by
      intro k m s hs
      by_cases hm : i / 2 ^ (k + 1) = m
      · left
        have hk : k < h := (nodeInner_lt.1 (innerD_lt R.shape (inner_of_has hs))).1
        refine ⟨k, hk, rfl, hm.symm, ?_⟩
        obtain ⟨nk, h1, h2⟩ := hs
        rw [← hm, R.nuKey k (Nat.zero_le _) hk] at h1
        simp only [Option.some.injEq] at h1
        subst h1
        simpa [NodeKey.keys] using h2
      · right
        have hsb : SameBelow w.tree s'.tree (k + 1) m := R.sameBelow sv.shape hi rfl hm
        exact ⟨hsb, hsb.self.has hs⟩
    have hleaf : ∀ m s, HasSecret s'.tree 0 m s → NotGen g s := by
      rintro m s ⟨nk, h1, h2⟩
      simp only [keyD, hL] at h1
      split at h1
      · simp only [Option.map_some, Option.some.injEq] at h1
        subst h1
        simp only [NodeKey.keys, List.mem_singleton, Pk.mk.injEq] at h2
        rw [h2]; exact hng
      · exact I.leaf m s ⟨nk, h1, h2⟩
    have hheld : ∀ n, World.Held { tree := s'.tree, rng := s'.rng, pub := PathChange.ciphers { leafId := id, leafIdx := i, leafPk := .share ⟨sk⟩, path := newp, removedKeys := l.pk.keys ++ keysOn w.tree (path h i) } ++ w.pub, trees := s'.tree :: w.trees } (g n) →
        w.Held (g n) ∨ ∃ l', l' < h ∧ n = ν l' := by
      rintro n ⟨t', ht', hp⟩
      rcases List.mem_cons.1 ht' with rfl | ht'
      · obtain ⟨k, m, hs⟩ := (present_iff R.single.inner).1 hp
        cases k with
        | zero => exact absurd rfl (hleaf m _ hs n)
        | succ k =>
          rcases hwhere k m _ hs with ⟨l', h1, _, _, h2⟩ | ⟨_, h1⟩
          · exact Or.inr ⟨l', h1, hf _ _ h2⟩
          · exact Or.inl ⟨w.tree, I.tree, (present_iff I.good.single.inner).2 ⟨_, _, h1⟩⟩
      · exact Or.inl ⟨t', ht', hp⟩
    have hciph : ∀ c ∈ PathChange.ciphers { leafId := id, leafIdx := i, leafPk := .share ⟨sk⟩, path := newp, removedKeys := l.pk.keys ++ keysOn w.tree (path h i) }, ∃ l', l' < h ∧ c.plain = g (ν l') ∧
        ∃ a b, c.key = deriveSymmetricKey a ⟨b⟩ ∧ PresentBelow s'.tree l' (i / 2 ^ l') a ∧
          (PresentBelow s'.tree l' (sib (i / 2 ^ l')) b ∨
            ∃ n, w.rng ≤ n ∧ n < s'.rng ∧ b = g n ∧ ∀ l'', l'' < h → n ≠ ν l'') := by
      intro c hc
      obtain ⟨l', _, h1, h2, a, b, h3, h4, h5⟩ := R.ciphers c hc
      refine ⟨l', h1, h2, a, b, h3, h4.present, ?_⟩
      rcases h5 with h5 | ⟨n, h6, h7, h8, h9, _⟩
      · exact Or.inl h5.present
      · exact Or.inr ⟨n, h6, h7, h8, fun l'' hl'' => h9 l'' (Nat.zero_le _) hl''⟩
    have huniq : ∀ k m k' m' s, HasSecret s'.tree (k + 1) m s → HasSecret s'.tree (k' + 1) m' s → k = k' ∧ m = m' := by
      intro k m k' m' s h1 h2
      rcases hwhere k m s h1 with ⟨l', a1, a2, a3, a4⟩ | ⟨_, a1⟩
      · rcases hwhere k' m' s h2 with ⟨l'', b1, b2, b3, b4⟩ | ⟨_, b1⟩
        · have hνeq : ν l' = ν l'' := hf _ _ (by rw [← a4, ← b4])
          have hll : l' = l'' := by
            rcases Nat.lt_trichotomy l' l'' with hlt | h0 | hlt
            · have := R.nuMono l' l'' (Nat.zero_le _) hlt b1; omega
            · exact h0
            · have := R.nuMono l'' l' (Nat.zero_le _) hlt a1; omega
          subst hll
          exact ⟨by omega, by rw [a3, b3]⟩
        · exfalso
          rw [a4] at b1
          have := I.held (ν l') ⟨w.tree, I.tree, (present_iff I.good.single.inner).2 ⟨_, _, b1⟩⟩
          have := (R.nuRng l' (Nat.zero_le _) a1).1
          simp only at this
          omega
      · rcases hwhere k' m' s h2 with ⟨l'', b1, b2, b3, b4⟩ | ⟨_, b1⟩
        · exfalso
          rw [b4] at a1
          have := I.held (ν l'') ⟨w.tree, I.tree, (present_iff I.good.single.inner).2 ⟨_, _, a1⟩⟩
          have := (R.nuRng l'' (Nat.zero_le _) b1).1
          simp only at this
          omega
        · exact I.uniq k m k' m' s a1 b1
    have hinner : ∀ k m s, HasSecret s'.tree (k + 1) m s → ∃ n, n < s'.rng ∧ s = g n := by
      intro k m s hs
      rcases hwhere k m s hs with ⟨l', a1, _, _, a4⟩ | ⟨_, a1⟩
      · exact ⟨ν l', (R.nuRng l' (Nat.zero_le _) a1).2, a4⟩
      · obtain ⟨n, b1, b2⟩ := I.inner k m s a1
        exact ⟨n, by omega, b2⟩
    have hpo : ∀ n, n < w.rng → Present s'.tree (g n) → Present w.tree (g n) := by
      intro n hn hpr
      obtain ⟨k, m, hs⟩ := (present_iff R.single.inner).1 hpr
      cases k with
      | zero => exact absurd rfl (hleaf m _ hs n)
      | succ k =>
        rcases hwhere k m _ hs with ⟨l', a1, _, _, a4⟩ | ⟨_, a1⟩
        · exfalso
          have := hf _ _ a4
          have := (R.nuRng l' (Nat.zero_le _) a1).1
          simp only at this
          omega
        · exact (present_iff I.good.single.inner).2 ⟨_, _, a1⟩
    refine ⟨⟨by simp, ⟨h, sv'⟩, good', ?_, hleaf, hinner, huniq, ?_, ?_⟩, hrng, ?_, ?_, fun s ⟨t', a, b⟩ => ⟨t', List.mem_cons_of_mem _ a, b⟩, fun c hc => List.mem_append_right _ hc, hpo⟩
    · intro n hn
      rcases hheld n hn with h1 | ⟨l', h1, rfl⟩
      · have := I.held n h1
        simp only
        omega
      · exact (R.nuRng l' (Nat.zero_le _) h1).2
    · intro c hc
      rcases List.mem_append.1 hc with hc | hc
      · obtain ⟨l', h1, h2, _⟩ := hciph c hc
        refine ⟨ν l', (R.nuRng l' (Nat.zero_le _) h1).2, h2, s'.tree, by simp, ?_⟩
        rw [present_iff R.single.inner]
        exact ⟨l' + 1, i / 2 ^ (l' + 1), _, R.nuKey l' (Nat.zero_le _) h1, by simp [NodeKey.keys]⟩
      · obtain ⟨n, h1, h2, t', h3, h4⟩ := I.pub c hc
        exact ⟨n, by simp only; omega, h2, t', List.mem_cons_of_mem _ h3, h4⟩
    · intro c hc k m hs
      rcases List.mem_append.1 hc with hc | hc
      · obtain ⟨l', h1, h2, a, b, h3, h4, h5⟩ := hciph c hc
        rw [h2] at hs
        rcases hwhere k m _ hs with ⟨l'', h6, rfl, rfl, h7⟩ | ⟨_, h6⟩
        · have hll : l' = k := by
            have hνeq : ν l' = ν k := hf _ _ h7
            rcases Nat.lt_trichotomy l' k with hlt | rfl | hlt
            · have := R.nuMono l' k (Nat.zero_le _) hlt h6; omega
            · rfl
            · have := R.nuMono k l' (Nat.zero_le _) hlt h1; omega
          subst hll
          refine ⟨a, b, h3, ?_, ?_⟩
          · have := h4.up
            rwa [← div_pow_succ] at this
          · rcases h5 with h5 | ⟨n, h8, h9, h10, h11⟩
            · left
              have := h5.up
              rwa [sib_div, ← div_pow_succ] at this
            · right
              refine ⟨n, h9, h10, ?_⟩
              intro hheld'
              rcases hheld n hheld' with h12 | ⟨l'', h12, h13⟩
              · have := I.held n h12; omega
              · exact h11 l'' h12 h13
        · exfalso
          have := I.held (ν l') ⟨w.tree, I.tree, (present_iff I.good.single.inner).2 ⟨_, _, h6⟩⟩
          have := (R.nuRng l' (Nat.zero_le _) h1).1
          simp only at this
          omega
      · rcases hwhere k m _ hs with ⟨l'', h6, rfl, rfl, h7⟩ | ⟨hsb, h6⟩
        · exfalso
          obtain ⟨n, h1, h2, _⟩ := I.pub c hc
          rw [h2] at h7
          have := hf _ _ h7
          have := (R.nuRng _ (Nat.zero_le _) h6).1
          simp only at this
          omega
        · obtain ⟨a, b, h1, h2, h3⟩ := I.pos c hc k m h6
          refine ⟨a, b, h1, h2.congr hsb, ?_⟩
          rcases h3 with h3 | ⟨n, h3, h4, h5⟩
          · exact Or.inl (h3.congr hsb)
          · refine Or.inr ⟨n, by simp only; omega, h4, ?_⟩
            intro hheld'
            rcases hheld n hheld' with h8 | ⟨l'', h8, h9⟩
            · exact h5 h8
            · have := (R.nuRng l'' (Nat.zero_le _) h8).1
              simp only at this
              omega
    · intro c hc
      rcases List.mem_append.1 hc with hc | hc
      · obtain ⟨l', h1, h2, _⟩ := hciph c hc
        exact Or.inr ⟨ν l', (R.nuRng l' (Nat.zero_le _) h1).1, h2⟩
      · exact Or.inl hc
    · intro n hn hheld'
      rcases hheld n hheld' with h8 | ⟨l'', h8, h9⟩
      · exact h8
      · have := (R.nuRng l'' (Nat.zero_le _) h8).1
        simp only at this
        omega

theorem secInv_reach {g : Gen} (hf : Fresh g) {w : World} (hw : Reach g w) : SecInv g w := by
  induction hw with
  | start h => exact secInv_start h
  | step _ hst ih => exact (step_res hf ih hst).inv

theorem steps_res {g : Gen} (hf : Fresh g) {w w' : World} (I : SecInv g w) (hst : Steps g w w') :
    StepRes g w w' := by
  induction hst with
  | refl => exact ⟨I, Nat.le_refl _, fun _ h => Or.inl h, fun _ _ h => h, fun _ h => h, fun _ h => h, fun _ _ h => h⟩
  | tail _ hs ih =>
    have r := step_res hf ih.inv hs
    refine ⟨r.inv, Nat.le_trans ih.rng r.rng, ?_, ?_, fun s h => r.heldMono s (ih.heldMono s h), fun c h => r.pubMono c (ih.pubMono c h),
      fun n hn hp => ih.presentOld n hn (r.presentOld n (Nat.lt_of_lt_of_le hn ih.rng) hp)⟩
    · intro c hc
      rcases r.pubNew c hc with h1 | ⟨n, h1, h2⟩
      · exact ih.pubNew c h1
      · exact Or.inr ⟨n, Nat.le_trans ih.rng h1, h2⟩
    · intro n hn hh
      exact ih.heldOld n hn (r.heldOld n (Nat.lt_of_lt_of_le hn ih.rng) hh)

/-- Removing the member at leaf `i` takes the secrets on its path out of the tree. -/
theorem remove_path_gone {g : Gen} {w : World} (I : SecInv g w) {h : Nat} (sv : SInv w.tree h)
    {id : MemberId} {t : BeeKem} {i : Nat} {rk : List Pk} (hr : w.tree.removeId id = .ok (t, i, rk)) :
    AMap.get w.tree.idToLeafIdx id = some i ∧
    ∀ k m s, nodeInner k m ∈ path h i → HasSecret w.tree (k + 1) m s → ¬ Present t s := by
  rcases removeId_cases w.tree id with ⟨_, h2⟩ | ⟨_, _, h2⟩ | ⟨i', hlen, hid⟩
  · rw [hr] at h2; simp at h2
  · rw [hr] at h2; simp at h2
  · obtain ⟨t', B, h1, h2, h3, h4, h5, h6, h7⟩ := removeId_ok sv.toWInv hid hlen
    rw [hr] at h1
    simp only [Except.ok.injEq, Prod.mk.injEq] at h1
    obtain ⟨rfl, rfl, rfl⟩ := h1
    refine ⟨hid, ?_⟩
    intro k m s hmem hs hp
    obtain ⟨k', m', hs'⟩ := (present_iff h2.vers).1 hp
    cases k' with
    | zero =>
      obtain ⟨n, _, hn⟩ := I.inner k m s hs
      obtain ⟨nk, a1, a2⟩ := hs'
      simp only [keyD, h4] at a1
      split at a1
      · simp at a1
      · exact I.leaf m' s ⟨nk, a1, a2⟩ n hn
    | succ k' =>
      obtain ⟨_, hs''⟩ := h7.has h2.shape hs'
      obtain ⟨rfl, rfl⟩ := I.uniq _ _ _ _ _ hs hs''
      apply inner_of_has hs'
      rw [h7.inner, if_pos ⟨i, h5, hmem⟩]

/-- An update at leaf `i` takes the old secrets on its path out of the tree. -/
theorem update_path_gone {g : Gen} (hf : Fresh g) {w : World} (I : SecInv g w) {h : Nat}
    (sv : SInv w.tree h) {id : MemberId} {i : Nat} (hid : AMap.get w.tree.idToLeafIdx id = some i)
    {sk : Sk} {sks : ShareKeyMap} (hng : NotGen g sk) (hsk : AMap.get sks ⟨sk⟩ = some sk)
    {t : BeeKem} {x : ShareKeyMap × Nat × Sk × PathChange}
    (he : w.tree.encryptPath g w.rng id ⟨sk⟩ sks = .ok (t, x)) :
    ∀ k m s, nodeInner k m ∈ path h i → HasSecret w.tree (k + 1) m s → ¬ Present t s := by
  have hi := sv.lt hid
  obtain ⟨l, hl, _⟩ := sv.ids id i hid
  obtain ⟨s', newp, ν, h1, R⟩ := encryptPath_ok g w.rng sv.shape I.good.single hi hid hl hsk
  rw [he] at h1
  simp only [Except.ok.injEq, Prod.mk.injEq] at h1
  obtain ⟨rfl, rfl⟩ := h1
  obtain ⟨sv', good', hL⟩ := encryptPath_inv g w.rng sv I.good hid R
  intro k m s hmem hs hp
  obtain ⟨n, hn1, hn⟩ := I.inner k m s hs
  obtain ⟨hk, rfl⟩ := mem_path_nodeInner.1 hmem
  obtain ⟨k', m', hs'⟩ := (present_iff R.single.inner).1 hp
  cases k' with
  | zero =>
    obtain ⟨nk, a1, a2⟩ := hs'
    simp only [keyD, hL] at a1
    split at a1
    · simp only [Option.map_some, Option.some.injEq] at a1
      subst a1
      simp only [NodeKey.keys, List.mem_singleton, Pk.mk.injEq] at a2
      rw [a2] at hn
      exact hng n hn
    · exact I.leaf m' s ⟨nk, a1, a2⟩ n hn
  | succ k' =>
    by_cases hm : i / 2 ^ (k' + 1) = m'
    · have hk' : k' < h := (nodeInner_lt.1 (innerD_lt R.shape (inner_of_has hs'))).1
      obtain ⟨nk, b1, b2⟩ := hs'
      rw [← hm, R.nuKey k' (Nat.zero_le _) hk'] at b1
      simp only [Option.some.injEq] at b1
      subst b1
      simp only [NodeKey.keys, List.mem_singleton, Pk.mk.injEq] at b2
      have := hf _ _ (hn.symm.trans b2)
      have := (R.nuRng k' (Nat.zero_le _) hk').1
      simp only at this
      omega
    · have hsb : SameBelow w.tree s'.tree (k' + 1) m' := R.sameBelow sv.shape hi rfl hm
      obtain ⟨rfl, rfl⟩ := I.uniq _ _ _ _ _ hs (hsb.self.has hs')
      exact hm rfl

theorem minmax_cases (a b a' b' : Nat) (h1 : min a b = min a' b') (h2 : max a b = max a' b') :
    a = a' ∨ a = b' := by omega

theorem derive_cases {a : Sk} {b : Pk} {a' b' : Sk}
    (h : deriveSymmetricKey a b = deriveSymmetricKey a' ⟨b'⟩) : a = a' ∨ a = b' := by
  simp only [deriveSymmetricKey, SymKey.mk.injEq] at h
  exact minmax_cases _ _ _ _ h.1 h.2

/-- Secrets that are in the tree now stay secret from whoever has none of them. -/
theorem secrecy {g : Gen} (hf : Fresh g) {w w' : World} (I : SecInv g w) (hst : Steps g w w')
    {K : Sk → Prop} (hK : ∀ s, K s → ¬ Present w.tree s ∧ (w'.Held s ∨ NotGen g s)) {s : Sk}
    (hd : Derivable K w'.pub s) : ¬ Present w.tree s ∧ (w'.Held s ∨ NotGen g s) := by
  have r := steps_res hf I hst
  induction hd with
  | known h => exact hK _ h
  | @opened c a b hc _ hkey ih =>
    obtain ⟨n, hn, hp, hheld⟩ := r.inv.pub c hc
    refine ⟨?_, Or.inl (by rw [hp]; exact hheld)⟩
    intro hpres
    rcases r.pubNew c hc with hold | ⟨n', hn', hp'⟩
    · obtain ⟨k, m, hs⟩ := (present_iff I.good.single.inner).1 hpres
      cases k with
      | zero => exact I.leaf m _ hs n hp
      | succ k =>
        obtain ⟨a', b', hk', ha', hb'⟩ := I.pos c hold k m hs
        have hbad : ∀ x, (x = a' ∨ x = b') → Present w.tree x ∨ (∃ n, n < w.rng ∧ x = g n ∧ ¬ w.Held (g n)) := by
          rintro x (rfl | rfl)
          · exact Or.inl (present_of_below I.good.single.inner ha')
          · rcases hb' with hb' | hb'
            · exact Or.inl (present_of_below I.good.single.inner hb')
            · exact Or.inr hb'
        have hxa : a = a' ∨ a = b' := by
          rw [hkey] at hk'
          exact derive_cases hk'
        rcases hbad a hxa with h1 | ⟨n0, h1, h2, h3⟩
        · exact ih.1 h1
        · rcases ih.2 with h4 | h4
          · rw [h2] at h4
            exact h3 (r.heldOld n0 h1 h4)
          · exact h4 n0 h2
    · rw [hp'] at hpres
      have := I.held n' ⟨w.tree, I.tree, hpres⟩
      omega

end BeeKem

end Verif.BeeKem
