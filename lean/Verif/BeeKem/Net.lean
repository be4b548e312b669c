import Verif.BeeKem.Struct
import Verif.BeeKem.NetSpec
import Verif.BeeKem.Decrypt
import Verif.BeeKem.Apply

/-! # Helper lemmas: trees after updates made at the same time -/

set_option linter.dupNamespace false

namespace Verif.BeeKem

open Verif.TreeMath Verif.BeeKem.Spec

namespace BeeKem

/-! ## Trees that differ in the order of conflicting keys only -/

/-- Node `(k, m)` holds the same thing in both trees, or is skipped in both. -/
def Like (t t' : BeeKem) (k m : Nat) : Prop := Same t t' k m ∨ (0 < k ∧ t.skipD k m = true ∧ t'.skipD k m = true)

theorem Like.skip {t t' : BeeKem} {k m : Nat} (h : Like t t' k m) : t.skipD k m = t'.skipD k m := by
  rcases h with h | ⟨_, h1, h2⟩
  · exact h.skip
  · rw [h1, h2]

theorem Like.same {t t' : BeeKem} {k m : Nat} (h : Like t t' k m) (hs : t.skipD k m = false) : Same t t' k m := by
  rcases h with h | ⟨_, h1, _⟩
  · exact h
  · rw [hs] at h1; simp at h1

/-- The subtrees rooted at `(k, m)`. -/
def LikeBelow (t t' : BeeKem) (k m : Nat) : Prop := ∀ k' m', k' ≤ k → m' / 2 ^ (k - k') = m → Like t t' k' m'

theorem LikeBelow.self {t t' : BeeKem} {k m : Nat} (h : LikeBelow t t' k m) : Like t t' k m :=
  h k m (Nat.le_refl _) (by simp)

theorem LikeBelow.res {t t' : BeeKem} {k m : Nat} (h : LikeBelow t t' k m) : t.resList k m = t'.resList k m :=
  resList_congr (fun k' m' h1 h2 => (h k' m' h1 h2).skip)

theorem LikeBelow.child {t t' : BeeKem} {k m n : Nat} (h : LikeBelow t t' (k + 1) m) (hn : n / 2 = m) :
    LikeBelow t t' k n := by
  intro k' m' h1 h2
  apply h k' m' (by omega)
  rw [show k + 1 - k' = (k - k') + 1 by omega, div_pow_succ, h2, hn]

theorem LikeBelow.nodeGood {t t' : BeeKem} {k m : Nat} (h : LikeBelow t t' (k + 1) m) (hs : t.skipD (k + 1) m = false)
    (hg : NodeGood t k m) : NodeGood t' k m := by
  obtain ⟨v, c, e, sN, h1, h2, h3, h4, h5, h6, h7, h8⟩ := hg
  refine ⟨v, c, e, sN, ?_, h2, h3, h4, ?_, ?_, h7, ?_⟩
  · rw [← h1]; exact (h.self.same hs).symm
  · rw [← h5]; exact (((h.child h4).self.same h6).key).symm
  · rw [← h6]; exact ((h.child h4).self.skip).symm
  · have hsb := h.child (n := sib c) (by rw [sib_div]; exact h4)
    intro r hr
    rw [← hsb.res] at hr
    obtain ⟨r1, r2, r3, _⟩ := mem_resList.1 (show (r.1, r.2) ∈ _ from hr)
    rw [← ((hsb r.1 r.2 r1 r2).same r3).key]
    exact h8 r hr

/-! ## What a tree holds after a set of updates -/

/-- The leaf of the author of update `j`. -/
def lf (S : Nat → Sent) (j : Nat) : Nat := (S j).pc.leafIdx

/-- What update `j` writes at level `l + 1`. -/
def ver (S : Nat → Sent) (j l : Nat) : SecretStoreVersion :=
  (((S j).pc.path[l]?).bind (fun q => q.2.versions.head?)).getD ⟨⟨0⟩, [], ⟨0⟩⟩

/-- Among the updates in `A` made below node `(k, m)`, none was made by someone who had seen `j`, which is one of them. -/
def Top (S : Nat → Sent) (A : List Nat) (k m j : Nat) : Prop :=
  j ∈ A ∧ lf S j / 2 ^ k = m ∧ ∀ x ∈ A, lf S x / 2 ^ k = m → j ∉ (S x).past

/-- The tree `t` holds what `t0` held and, where updates of `A` were made below, their latest keys. -/
structure Holds (S : Nat → Sent) (t0 : BeeKem) (h : Nat) (A : List Nat) (t : BeeKem) : Prop where
  leaf : ∀ i, ((∀ j ∈ A, lf S j ≠ i) ∧ t.leafD i = t0.leafD i) ∨
    ∃ j, Top S A 0 i j ∧ t.leafD i = some ⟨(S j).who, (S j).pc.leafPk⟩
  inner : ∀ l m, l < h → ((∀ j ∈ A, lf S j / 2 ^ (l + 1) ≠ m) ∧ t.innerD (nodeInner l m) = t0.innerD (nodeInner l m)) ∨
    ∃ js : List Nat, js ≠ [] ∧ js.Nodup ∧ (∀ j, j ∈ js ↔ Top S A (l + 1) m j) ∧
      t.innerD (nodeInner l m) = some ⟨js.map (fun j => ver S j l)⟩

/-- What is known about a published update. -/
structure Valid (S : Nat → Sent) (t0 : BeeKem) (h : Nat) (j : Nat) : Prop where
  who : AMap.get t0.idToLeafIdx (S j).who = some (lf S j)
  leafId : (S j).pc.leafId = (S j).who
  leafPk : ∃ a, (S j).pc.leafPk = .share ⟨a⟩
  pathIdx : (S j).pc.path.map (·.1) = path h (lf S j)
  pathVal : ∀ q ∈ (S j).pc.path, ∃ l, l < h ∧ q = (nodeInner l (lf S j / 2 ^ (l + 1)), ⟨[ver S j l]⟩)
  irrefl : j ∉ (S j).past
  closed : ∀ x ∈ (S j).past, ∀ y ∈ (S x).past, y ∈ (S j).past
  before : ∃ T l, Holds S t0 h (S j).past T ∧ T.leafD (lf S j) = some l ∧
    (S j).pc.removedKeys = l.pk.keys ++ keysOn T (path h (lf S j))

/-- What is known about the updates in `U` taken together: nobody updates twice without having seen their first update, and the node
keys are new. -/
structure Apart (S : Nat → Sent) (t0 : BeeKem) (h : Nat) (U : Nat → Prop) : Prop where
  chain : ∀ x y, U x → U y → (S x).who = (S y).who → x = y ∨ x ∈ (S y).past ∨ y ∈ (S x).past
  rank : ∃ rk : Nat → Nat, ∀ x y, U y → x ∈ (S y).past → rk x < rk y
  old : ∀ j l x, U j → l < h → (ver S j l).pk = ⟨x⟩ → ¬ Present t0 x
  leaf : ∀ j x l, U j → U x → l < h → (ver S j l).pk ∉ (S x).pc.leafPk.keys
  node : ∀ j x l l', U j → U x → l < h → l' < h → (ver S j l).pk = (ver S x l').pk → j = x

section

variable {S : Nat → Sent} {t0 : BeeKem} {h : Nat} {U : Nat → Prop}

theorem holds_nil (t0 : BeeKem) : Holds S t0 h [] t0 :=
  ⟨fun _ => Or.inl ⟨by simp, rfl⟩, fun _ _ _ => Or.inl ⟨by simp, rfl⟩⟩

theorem Top.congr {A B : List Nat} {k m j : Nat} (hAB : ∀ x, lf S x / 2 ^ k = m → (x ∈ A ↔ x ∈ B)) (ht : Top S A k m j) :
    Top S B k m j :=
  ⟨(hAB j ht.2.1).1 ht.1, ht.2.1, fun x hx hm => ht.2.2 x ((hAB x hm).2 hx) hm⟩

/-- Same leaf, same author. -/
theorem same_who (sv : SInv t0 h) {j x : Nat} (vj : Valid S t0 h j) (vx : Valid S t0 h x) (he : lf S j = lf S x) :
    (S j).who = (S x).who := by
  obtain ⟨l, h1, h2⟩ := sv.ids _ _ vj.who
  obtain ⟨l', h3, h4⟩ := sv.ids _ _ vx.who
  rw [he, h3] at h1
  rw [← h2, ← h4, Option.some.inj h1]

/-- Two updates at one leaf: the later author had seen the earlier one. -/
theorem leaf_chain (ap : Apart S t0 h U) (sv : SInv t0 h) {j x : Nat} (uj : U j) (ux : U x) (vj : Valid S t0 h j)
    (vx : Valid S t0 h x) (he : lf S j = lf S x) : j = x ∨ j ∈ (S x).past ∨ x ∈ (S j).past :=
  ap.chain j x uj ux (same_who sv vj vx he)

theorem innerD_high {t : BeeKem} (hs : Shape t h) {l m : Nat} (hl : h ≤ l) : t.innerD (nodeInner l m) = none := by
  by_contra hc
  have := (nodeInner_lt.1 (innerD_lt hs hc)).1
  omega

/-- Trees with the same updates below a node are alike there. -/
theorem Holds.like (ap : Apart S t0 h U) (sv : SInv t0 h) {A B : List Nat} {t t' : BeeKem} (hs : Shape t h) (hs' : Shape t' h)
    (hA : Holds S t0 h A t) (hB : Holds S t0 h B t') (uA : ∀ j ∈ A, U j) (vA : ∀ j ∈ A, Valid S t0 h j) {k m : Nat}
    (hAB : ∀ x, lf S x / 2 ^ k = m → (x ∈ A ↔ x ∈ B)) : Like t t' k m := by
  cases k with
  | zero =>
    left
    have hAB' : ∀ x, lf S x = m → (x ∈ A ↔ x ∈ B) := fun x hx => hAB x (by simpa using hx)
    change t.leafD m = t'.leafD m
    rcases hA.leaf m with ⟨a1, a2⟩ | ⟨j, a1, a2⟩ <;> rcases hB.leaf m with ⟨b1, b2⟩ | ⟨x, b1, b2⟩
    · rw [a2, b2]
    · have hx : lf S x = m := by simpa using b1.2.1
      exact absurd hx (a1 x ((hAB' x hx).2 b1.1))
    · have hx : lf S j = m := by simpa using a1.2.1
      exact absurd hx (b1 j ((hAB' j hx).1 a1.1))
    · have hj : lf S j = m := by simpa using a1.2.1
      have hx : lf S x = m := by simpa using b1.2.1
      have hxA := (hAB' x hx).2 b1.1
      rcases leaf_chain ap sv (uA j a1.1) (uA x hxA) (vA j a1.1) (vA x hxA) (hj.trans hx.symm) with he | he | he
      · rw [a2, b2, he]
      · exact absurd he (a1.2.2 x hxA (by simpa using hx))
      · exact absurd he (b1.2.2 j ((hAB' j hj).1 a1.1) (by simpa using hj))
  | succ l =>
    by_cases hl : l < h
    · rcases hA.inner l m hl with ⟨a1, a2⟩ | ⟨js, a0, a1, a2, a3⟩ <;>
        rcases hB.inner l m hl with ⟨b1, b2⟩ | ⟨js', b0, b1, b2, b3⟩
      · left
        change t.innerD _ = t'.innerD _
        rw [a2, b2]
      · obtain ⟨x, hx⟩ := List.exists_mem_of_ne_nil _ b0
        have hx := (b2 x).1 hx
        exact absurd hx.2.1 (a1 x ((hAB x hx.2.1).2 hx.1))
      · obtain ⟨x, hx⟩ := List.exists_mem_of_ne_nil _ a0
        have hx := (a2 x).1 hx
        exact absurd hx.2.1 (b1 x ((hAB x hx.2.1).1 hx.1))
      · have hp : js.Perm js' := by
          rw [List.perm_ext_iff_of_nodup a1 b1]
          intro x
          rw [a2, b2]
          exact ⟨Top.congr hAB, Top.congr (fun y hy => (hAB y hy).symm)⟩
        match js, js', hp with
        | [], _, _ => exact absurd rfl a0
        | [j], js', hp =>
          have : js' = [j] := List.perm_singleton.1 hp.symm
          subst this
          left
          change t.innerD _ = t'.innerD _
          rw [a3, b3]
        | j :: j2 :: more, js', hp =>
          right
          have hlen := hp.length_eq
          refine ⟨Nat.succ_pos _, ?_, ?_⟩
          · simp [skipD, a3, SecretStore.hasConflict]
          · simp only [skipD, b3, SecretStore.hasConflict, List.length_map, ← hlen]
            simp
    · left
      change t.innerD _ = t'.innerD _
      rw [innerD_high hs (by omega), innerD_high hs' (by omega)]

theorem Holds.likeBelow (ap : Apart S t0 h U) (sv : SInv t0 h) {A B : List Nat} {t t' : BeeKem} (hs : Shape t h)
    (hs' : Shape t' h) (hA : Holds S t0 h A t) (hB : Holds S t0 h B t') (uA : ∀ j ∈ A, U j)
    (vA : ∀ j ∈ A, Valid S t0 h j) {k m : Nat}
    (hAB : ∀ x, lf S x / 2 ^ k = m → (x ∈ A ↔ x ∈ B)) : LikeBelow t t' k m := by
  intro k' m' h1 h2
  apply hA.like ap sv hs hs' hB uA vA
  intro x hx
  apply hAB
  rw [← hx, div_div_pow, show k' + (k - k') = k by omega] at h2
  exact h2

/-- Every update below a node with a single latest one had been seen by the author of that one. -/
theorem below_top (ap : Apart S t0 h U) {A : List Nat} (uA : ∀ j ∈ A, U j) {k m j : Nat} (hj : Valid S t0 h j)
    (hu : ∀ x, Top S A k m x → x = j) : ∀ x ∈ A, lf S x / 2 ^ k = m → x = j ∨ x ∈ (S j).past := by
  obtain ⟨rk, hrk⟩ := ap.rank
  have hb : ∃ b, ∀ x ∈ A, rk x < b := by
    clear uA hu
    induction A with
    | nil => exact ⟨0, by simp⟩
    | cons a A ih =>
      obtain ⟨b, hb⟩ := ih
      refine ⟨max b (rk a + 1), ?_⟩
      intro x hx
      rcases List.mem_cons.1 hx with rfl | hx
      · omega
      · have := hb x hx; omega
  obtain ⟨b, hb⟩ := hb
  have key : ∀ d x, b - rk x = d → x ∈ A → lf S x / 2 ^ k = m → x = j ∨ x ∈ (S j).past := by
    intro d
    induction d using Nat.strongRecOn with
    | ind d ih =>
      intro x hd hx hm
      by_cases ht : Top S A k m x
      · exact Or.inl (hu x ht)
      · have : ∃ y ∈ A, lf S y / 2 ^ k = m ∧ x ∈ (S y).past := by
          by_contra hc
          apply ht
          refine ⟨hx, hm, ?_⟩
          intro y hy hym hxy
          exact hc ⟨y, hy, hym, hxy⟩
        obtain ⟨y, hy, hym, hxy⟩ := this
        have h1 := hrk x y (uA y hy) hxy
        have h2 := hb y hy
        rcases ih (b - rk y) (by omega) y rfl hy hym with rfl | hyj
        · exact Or.inr hxy
        · exact Or.inr (hj.closed y hyj x hxy)
  intro x hx hm
  exact key _ x rfl hx hm

/-- Leaves have single keys and every node that is not skipped can be opened below. -/
theorem Holds.good (ap : Apart S t0 h U) (sv : SInv t0 h) (g0 : Good t0) {A : List Nat} {t : BeeKem} (w : SInv t h)
    (hA : Holds S t0 h A t) (uA : ∀ j ∈ A, U j) (vA : ∀ j ∈ A, Valid S t0 h j)
    (after : ∀ j ∈ A, ∃ T, SInv T h ∧ Good T ∧ Holds S t0 h (j :: (S j).past) T)
    (hc : ∀ j ∈ A, ∀ x ∈ (S j).past, x ∈ A) : Good t := by
  refine ⟨⟨?_, w.vers⟩, ?_⟩
  · intro i l hl
    rcases hA.leaf i with ⟨_, a2⟩ | ⟨j, a1, a2⟩
    · rw [a2] at hl; exact g0.single.leaf i l hl
    · rw [a2] at hl
      rw [← Option.some.inj hl]
      exact (vA j a1.1).leafPk
  · intro l m hne
    have hl : l < h := by
      by_contra hc
      exact inner_of_skip hne (innerD_high w.shape (by omega))
    rcases hA.inner l m hl with ⟨a1, a2⟩ | ⟨js, a0, a1, a2, a3⟩
    · have hlk : LikeBelow t0 t (l + 1) m :=
        (holds_nil (S := S) (h := h) t0).likeBelow ap sv sv.shape w.shape hA (by simp) (by simp) (by
          intro x hx
          simp only [List.not_mem_nil, false_iff]
          intro hxA
          exact a1 x hxA hx)
      have hs0 : t0.skipD (l + 1) m = false := by rw [hlk.self.skip]; exact hne
      exact hlk.nodeGood hs0 (g0.node l m hs0)
    · match js, a0, a1, a2, a3 with
      | [], a0, _, _, _ => exact absurd rfl a0
      | j :: j2 :: more, _, _, _, a3 => simp [skipD, a3, SecretStore.hasConflict] at hne
      | [j], _, _, a2, a3 =>
        have hj := (a2 j).1 (by simp)
        have vj := vA j hj.1
        obtain ⟨T, wT, gT, hT⟩ := after j hj.1
        have hb := below_top ap uA vj (fun x hx => by simpa using (a2 x).2 hx)
        have hlk : LikeBelow T t (l + 1) m := by
          refine hT.likeBelow ap sv wT.shape w.shape hA ?_ ?_ ?_
          · intro x hx
            rcases List.mem_cons.1 hx with rfl | hx
            · exact uA _ hj.1
            · exact uA x (hc j hj.1 x hx)
          · intro x hx
            rcases List.mem_cons.1 hx with rfl | hx
            · exact vj
            · exact vA x (hc j hj.1 x hx)
          · intro x hx
            constructor
            · intro hx'
              rcases List.mem_cons.1 hx' with rfl | hx'
              · exact hj.1
              · exact hc j hj.1 x hx'
            · intro hxA
              rcases hb x hxA hx with rfl | hx'
              · simp
              · exact List.mem_cons_of_mem _ hx'
        have hs0 : T.skipD (l + 1) m = false := by rw [hlk.self.skip]; exact hne
        exact hlk.nodeGood hs0 (gT.node l m hs0)

/-! ## Applying an update -/

theorem applyPath_at {t : BeeKem} {i : Nat} {pc : PathChange} {l : LeafNode} {nk : NodeKey} (w : SInv t h)
    (hid : AMap.get t.idToLeafIdx pc.leafId = some i) (hidx : pc.leafIdx = i) (hp : pc.path.map (·.1) = path h i)
    (hl : t.leafD i = some l) (hm : l.pk.merge pc.leafPk pc.removedKeys = .ok nk)
    (hv : ∀ q ∈ pc.path, q.2.versions ≠ []) :
    ∃ t', t.applyPath pc = .ok t' ∧ SInv t' h ∧ t'.idToLeafIdx = t.idToLeafIdx ∧
      (∀ j, t'.leafD j = if j = i then some ⟨pc.leafId, nk⟩ else t.leafD j) ∧
      (∀ j, j ∉ path h i → t'.innerD j = t.innerD j) ∧
      (∀ q ∈ pc.path, t'.innerD q.1 = some (match t.innerD q.1 with
          | none => q.2
          | some cur => cur.merge q.2 pc.removedKeys)) := by
  have hi := w.lt hid
  have hin : ∀ q ∈ pc.path, q.1 ∈ path h i := by
    intro q hq; rw [← hp]; exact List.mem_map_of_mem hq
  have hlen : pc.path.length = h := by
    have := congrArg List.length hp
    simpa [path_length] using this
  have hval : t.isValidPath pc = .ok true := by
    unfold isValidPath leafIndexForId
    simp only [hid, bind, Except.bind]
    rw [hidx, directPathRes_ok w.shape hi]
    simp [pure, Except.pure, path_length, hlen]
  have w1 := w.setLeaf hid nk
  have hL : ∀ j, leafD { t with leaves := t.leaves.set i (some ⟨pc.leafId, nk⟩) } j =
      if j = i then some ⟨pc.leafId, nk⟩ else t.leafD j := leafD_set w.shape hi _
  obtain ⟨t', h1, h2, h3, h4, h5, h6, h7, h8⟩ := applyPathLoop_ok pc.removedKeys pc.path w1.shape
    (fun q hq => path_lt hi (hin q hq))
  have w2 := w1.toWInv.ofInner h2 h3 h4 h5 (h8 hv w1.vers)
  refine ⟨t', ?_, w1.ofInner w2 h3 h5, h5, ?_, ?_, ?_⟩
  · unfold applyPath containsId AMap.contains
    simp only [hid, Option.isSome_some, if_true, leafIndexForId, bind, Except.bind, hval, leaf_ok w.shape hi, hl, hm,
      insertLeafAt_ok w.shape hi]
    exact h1
  · intro j
    rw [← hL]
    unfold leafD
    rw [h3]
  · intro j hj
    exact h6 j (by rw [hp]; exact hj)
  · exact h7 (by rw [hp]; exact above_nodup h i)

theorem present_inner {t : BeeKem} {j : Nat} {s : SecretStore} (hj : t.innerD j = some s) {v : SecretStoreVersion}
    (hv : v ∈ s.versions) {x : Sk} (hx : v.pk = ⟨x⟩) : Present t x :=
  Or.inr ⟨j, s, join_some.1 (by unfold innerD at hj; exact hj), v, hv, hx⟩

theorem present_leaf {t : BeeKem} {i : Nat} {l : LeafNode} (hl : t.leafD i = some l) {x : Sk} (hx : (⟨x⟩ : Pk) ∈ l.pk.keys) :
    Present t x := Or.inl ⟨i, l, leafAt_iff.2 hl, hx⟩

/-- Which of the keys of earlier updates a path change declares removed: those its author had seen. -/
theorem removed_iff (ap : Apart S t0 h U) {A : List Nat} {k : Nat} (vk : Valid S t0 h k) (uk : U k)
    (hpA : ∀ x ∈ (S k).past, x ∈ A) (uA : ∀ x ∈ A, U x) {l j : Nat} (hl : l < h)
    (ht : Top S A (l + 1) (lf S k / 2 ^ (l + 1)) j) : (ver S j l).pk ∈ (S k).pc.removedKeys ↔ j ∈ (S k).past := by
  obtain ⟨T, l0, hT, hl0, hrem⟩ := vk.before
  have uj := uA j ht.1
  rw [hrem, List.mem_append]
  constructor
  · rintro (hm | hm)
    · exfalso
      rcases hT.leaf (lf S k) with ⟨_, a2⟩ | ⟨x, a1, a2⟩
      · rw [a2] at hl0
        exact ap.old j l (ver S j l).pk.of uj hl rfl (present_leaf hl0 hm)
      · rw [a2] at hl0
        rw [← Option.some.inj hl0] at hm
        exact ap.leaf j x l uj (uA x (hpA x a1.1)) hl hm
    · unfold keysOn at hm
      rw [List.mem_flatMap] at hm
      obtain ⟨q, hq, hm⟩ := hm
      obtain ⟨l', hl', rfl⟩ := mem_path.1 hq
      rcases hT.inner l' (lf S k / 2 ^ (l' + 1)) hl' with ⟨_, a2⟩ | ⟨js, _, _, a2, a3⟩
      · exfalso
        rw [a2] at hm
        cases hc : t0.innerD (nodeInner l' (lf S k / 2 ^ (l' + 1))) with
        | none => rw [hc] at hm; simp at hm
        | some s =>
          rw [hc] at hm
          obtain ⟨v, hv, hvp⟩ := List.mem_map.1 hm
          exact ap.old j l (ver S j l).pk.of uj hl rfl (present_inner hc hv hvp)
      · rw [a3] at hm
        simp only [List.map_map, List.mem_map, Function.comp] at hm
        obtain ⟨x, hx, hxe⟩ := hm
        have hxp := ((a2 x).1 hx).1
        rw [ap.node j x l l' uj (uA x (hpA x hxp)) hl hl' hxe.symm]
        exact hxp
  · intro hj
    right
    unfold keysOn
    rw [List.mem_flatMap]
    refine ⟨nodeInner l (lf S k / 2 ^ (l + 1)), mem_path_nodeInner.2 ⟨hl, rfl⟩, ?_⟩
    have ht' : Top S (S k).past (l + 1) (lf S k / 2 ^ (l + 1)) j := ⟨hj, ht.2.1, fun x hx => ht.2.2 x (hpA x hx)⟩
    rcases hT.inner l (lf S k / 2 ^ (l + 1)) hl with ⟨a1, _⟩ | ⟨js, _, _, a2, a3⟩
    · exact absurd ht.2.1 (a1 j hj)
    · rw [a3]
      simp only [List.map_map, List.mem_map, Function.comp]
      exact ⟨j, (a2 j).2 ht', rfl⟩

theorem top_cons {A : List Nat} {k : Nat} (vk : Valid S t0 h k) (hk : k ∉ A)
    (hc : ∀ j ∈ A, ∀ x ∈ (S j).past, x ∈ A) {l m j : Nat} :
    Top S (k :: A) l m j ↔ (j = k ∧ lf S k / 2 ^ l = m) ∨ (Top S A l m j ∧ (lf S k / 2 ^ l = m → j ∉ (S k).past)) := by
  have hkk : k ∉ (S k).past := vk.irrefl
  constructor
  · rintro ⟨h1, h2, h3⟩
    rcases List.mem_cons.1 h1 with rfl | h1
    · exact Or.inl ⟨rfl, h2⟩
    · exact Or.inr ⟨⟨h1, h2, fun x hx => h3 x (List.mem_cons_of_mem _ hx)⟩, h3 k (by simp)⟩
  · rintro (⟨rfl, h2⟩ | ⟨⟨h1, h2, h3⟩, h4⟩)
    · refine ⟨by simp, h2, ?_⟩
      intro x hx _
      rcases List.mem_cons.1 hx with rfl | hx
      · exact hkk
      · exact fun hcx => hk (hc x hx _ hcx)
    · refine ⟨List.mem_cons_of_mem _ h1, h2, ?_⟩
      intro x hx hm
      rcases List.mem_cons.1 hx with rfl | hx
      · exact h4 hm
      · exact h3 x hx hm

/-- An update arrives where everything its author had seen is. -/
theorem Holds.apply (ap : Apart S t0 h U) (sv : SInv t0 h) {A : List Nat} {t : BeeKem} (w : SInv t h) (gt : Good t)
    (hids : t.idToLeafIdx = t0.idToLeafIdx) (hA : Holds S t0 h A t) (uA : ∀ j ∈ A, U j) (vA : ∀ j ∈ A, Valid S t0 h j)
    (hc : ∀ j ∈ A, ∀ x ∈ (S j).past, x ∈ A) {k : Nat} (uk : U k) (vk : Valid S t0 h k) (hk : k ∉ A)
    (hpA : ∀ x ∈ (S k).past, x ∈ A) :
    ∃ t', t.applyPath (S k).pc = .ok t' ∧ SInv t' h ∧ t'.idToLeafIdx = t0.idToLeafIdx ∧ Holds S t0 h (k :: A) t' := by
  have hid : AMap.get t.idToLeafIdx (S k).pc.leafId = some (lf S k) := by rw [hids, vk.leafId]; exact vk.who
  obtain ⟨l, hl, _⟩ := w.ids _ _ hid
  obtain ⟨T, l0, hT, hl0, hrem⟩ := vk.before
  -- the leaf has the key that the author of the update replaced
  have hll : l = l0 := by
    have hmine : ∀ x ∈ A, lf S x = lf S k → x ∈ (S k).past := by
      intro x hx he
      rcases leaf_chain ap sv (uA x hx) uk (vA x hx) vk he with rfl | hp | hp
      · exact absurd hx hk
      · exact hp
      · exact absurd (hc x hx k hp) hk
    rcases hA.leaf (lf S k) with ⟨a1, a2⟩ | ⟨j, a1, a2⟩ <;> rcases hT.leaf (lf S k) with ⟨b1, b2⟩ | ⟨x, b1, b2⟩
    · rw [a2, ← b2, hl0] at hl; exact (Option.some.inj hl).symm
    · exact absurd (by simpa using b1.2.1) (a1 x (hpA x b1.1))
    · have he : lf S j = lf S k := by simpa using a1.2.1
      exact absurd he (b1 j (hmine j a1.1 he))
    · have he : lf S j = lf S k := by simpa using a1.2.1
      have hx : lf S x = lf S k := by simpa using b1.2.1
      have hxA := hpA x b1.1
      rcases leaf_chain ap sv (uA j a1.1) (uA x hxA) (vA j a1.1) (vA x hxA) (he.trans hx.symm) with he' | he' | he'
      · rw [a2] at hl; rw [b2] at hl0
        rw [← Option.some.inj hl, ← Option.some.inj hl0, he']
      · exact absurd he' (a1.2.2 x hxA (by simpa using hx))
      · exact absurd he' (b1.2.2 j (hmine j a1.1 he) (by simpa using he))
  obtain ⟨a, ha⟩ := gt.single.leaf _ _ hl
  obtain ⟨b, hb⟩ := vk.leafPk
  have hm : l.pk.merge (S k).pc.leafPk (S k).pc.removedKeys = .ok (S k).pc.leafPk := by
    rw [hb, hrem, ← hll, ha]
    simp [NodeKey.merge, NodeKey.keys]
  obtain ⟨t', h1, h2, h3, h4, h5, h6⟩ := applyPath_at w hid rfl vk.pathIdx hl hm (by
    intro q hq
    obtain ⟨l', _, rfl⟩ := vk.pathVal q hq
    simp)
  refine ⟨t', h1, h2, h3.trans hids, ⟨?_, ?_⟩⟩
  · intro i
    by_cases hi : i = lf S k
    · right
      refine ⟨k, (top_cons vk hk hc).2 (Or.inl ⟨rfl, by simp [hi]⟩), ?_⟩
      rw [h4, if_pos hi, vk.leafId]
    · rcases hA.leaf i with ⟨a1, a2⟩ | ⟨j, a1, a2⟩
      · left
        refine ⟨?_, by rw [h4, if_neg hi]; exact a2⟩
        intro j hj
        rcases List.mem_cons.1 hj with rfl | hj
        · exact Ne.symm hi
        · exact a1 j hj
      · right
        refine ⟨j, (top_cons vk hk hc).2 (Or.inr ⟨a1, ?_⟩), by rw [h4, if_neg hi]; exact a2⟩
        intro hc
        exact absurd (by simpa using hc.symm) hi
  · intro lv m hlv
    by_cases hmk : lf S k / 2 ^ (lv + 1) = m
    · right
      subst hmk
      have hq : ((nodeInner lv (lf S k / 2 ^ (lv + 1)), ⟨[ver S k lv]⟩) : Nat × SecretStore) ∈ (S k).pc.path := by
        have : nodeInner lv (lf S k / 2 ^ (lv + 1)) ∈ (S k).pc.path.map (·.1) := by
          rw [vk.pathIdx]; exact mem_path_nodeInner.2 ⟨hlv, rfl⟩
        obtain ⟨q, hq, hq1⟩ := List.mem_map.1 this
        obtain ⟨l', _, rfl⟩ := vk.pathVal q hq
        have := (nodeInner_inj hq1).1
        subst this
        exact hq
      have hv := h6 _ hq
      simp only at hv
      rcases hA.inner lv (lf S k / 2 ^ (lv + 1)) hlv with ⟨a1, a2⟩ | ⟨js, a0, a1, a2, a3⟩
      · refine ⟨[k], by simp, by simp, ?_, ?_⟩
        · intro j
          rw [List.mem_singleton, top_cons vk hk hc]
          constructor
          · rintro rfl; exact Or.inl ⟨rfl, rfl⟩
          · rintro (⟨rfl, _⟩ | ⟨ht, _⟩)
            · rfl
            · exact absurd ht.2.1 (a1 j ht.1)
        · rw [hv, a2]
          cases hcur : t0.innerD (nodeInner lv (lf S k / 2 ^ (lv + 1))) with
          | none => rfl
          | some cur =>
            have hfil : cur.versions.filter (fun v => decide (v.pk ∉ (S k).pc.removedKeys)) = [] := by
              rw [List.filter_eq_nil_iff]
              intro v hv
              simp only [decide_eq_true_eq, not_not]
              rw [hrem, List.mem_append]
              right
              unfold keysOn
              rw [List.mem_flatMap]
              refine ⟨nodeInner lv (lf S k / 2 ^ (lv + 1)), mem_path_nodeInner.2 ⟨hlv, rfl⟩, ?_⟩
              rcases hT.inner lv (lf S k / 2 ^ (lv + 1)) hlv with ⟨_, b2⟩ | ⟨js, b0, _, b2, _⟩
              · rw [b2, hcur]; exact List.mem_map_of_mem hv
              · obtain ⟨x, hx⟩ := List.exists_mem_of_ne_nil _ b0
                have hx := (b2 x).1 hx
                exact absurd hx.2.1 (a1 x (hpA x hx.1))
            simp only [SecretStore.merge, SecretStore.removeKeysFrom, hfil]
            rfl
      · refine ⟨js.filter (fun j => decide (j ∉ (S k).past)) ++ [k], by simp, ?_, ?_, ?_⟩
        · rw [List.nodup_append]
          refine ⟨a1.filter _, by simp, ?_⟩
          intro x hx y hy
          rw [List.mem_singleton] at hy
          rintro rfl
          exact hk (hy ▸ ((a2 x).1 (List.mem_filter.1 hx).1).1)
        · intro j
          rw [top_cons vk hk hc, List.mem_append, List.mem_filter, List.mem_singleton, a2]
          simp only [decide_eq_true_eq, forall_const]
          constructor
          · rintro (h | rfl)
            · exact Or.inr h
            · exact Or.inl ⟨rfl, trivial⟩
          · rintro (⟨rfl, _⟩ | h)
            · exact Or.inr rfl
            · exact Or.inl h
        · rw [hv, a3]
          simp only [SecretStore.merge, SecretStore.removeKeysFrom, List.map_append, List.map_cons, List.map_nil]
          congr 3
          rw [List.filter_map]
          congr 1
          apply List.filter_congr
          intro j hj
          simp only [Function.comp]
          rw [decide_eq_decide, not_iff_not]
          exact removed_iff ap vk uk hpA uA hlv ((a2 j).1 hj)
    · have hnp : nodeInner lv m ∉ path h (lf S k) := by
        rw [mem_path_nodeInner]
        rintro ⟨_, h⟩
        exact hmk h.symm
      rw [h5 _ hnp]
      rcases hA.inner lv m hlv with ⟨a1, a2⟩ | ⟨js, a0, a1, a2, a3⟩
      · left
        refine ⟨?_, a2⟩
        intro j hj
        rcases List.mem_cons.1 hj with rfl | hj
        · exact hmk
        · exact a1 j hj
      · right
        refine ⟨js, a0, a1, ?_, a3⟩
        intro j
        rw [a2, top_cons vk hk hc]
        constructor
        · intro ht
          exact Or.inr ⟨ht, fun h => absurd h hmk⟩
        · rintro (⟨rfl, h⟩ | ⟨ht, _⟩)
          · exact absurd h hmk
          · exact ht

theorem keyD_single {t : BeeKem} {l m : Nat} {v : SecretStoreVersion} (hv : t.innerD (nodeInner l m) = some ⟨[v]⟩) :
    t.keyD (l + 1) m = some (.share v.pk) := by
  simp [keyD, hv, SecretStore.nodeKey, NodeKey.ofSlice, Except.toOption]

/-- An update that was just made. -/
theorem made_valid {T T' : BeeKem} {past : List Nat} (w : SInv T h) (gT : Good T) (hids : T.idToLeafIdx = t0.idToLeafIdx)
    (hT : Holds S t0 h past T) {g : Gen} {c n : Nat} {id : MemberId} {sk : Sk} {sks sks' : ShareKeyMap} {r : Sk} {pc : PathChange}
    (hsk : AMap.get sks ⟨sk⟩ = some sk) (he : T.encryptPath g c id ⟨sk⟩ sks = .ok (T', sks', n, r, pc)) {k : Nat}
    (s1 : (S k).who = id) (s2 : (S k).past = past) (s3 : (S k).pc = pc) (hk : k ∉ past)
    (hc : ∀ x ∈ past, ∀ y ∈ (S x).past, y ∈ past) :
    Valid S t0 h k ∧ SInv T' h ∧ Good T' ∧ T.applyPath pc = .ok T' ∧ T'.idToLeafIdx = t0.idToLeafIdx ∧
      pc.leafPk = .share ⟨sk⟩ ∧ (ver S k (h - 1)).pk = ⟨r⟩ ∧ (∀ l, l < h → ver S k l ∈ pc.path.flatMap (fun q => q.2.versions)) ∧
      ∃ ν : Nat → Nat, (∀ l, l < h → (ver S k l).pk = ⟨g (ν l)⟩) ∧ ∀ l l', l < h → l' < h → ν l = ν l' → l = l' := by
  obtain ⟨i, hid⟩ : ∃ i', AMap.get T.idToLeafIdx id = some i' := by
    cases hg : AMap.get T.idToLeafIdx id with
    | some i' => exact ⟨i', rfl⟩
    | none =>
      unfold encryptPath leafIndexForId at he
      simp [hg, bind, Except.bind] at he
  have hi := w.lt hid
  obtain ⟨l, hl, _⟩ := w.ids id i hid
  obtain ⟨s', newp, ν, h1, R⟩ := encryptPath_ok g c w.shape gT.single hi hid hl hsk
  rw [he] at h1
  simp only [Except.ok.injEq, Prod.mk.injEq] at h1
  obtain ⟨rfl, rfl, rfl, rfl, rfl⟩ := h1
  obtain ⟨sv', good', _⟩ := encryptPath_inv _ c w gT hid R
  have hap := applyPath_encrypt w gT hid hl R
  have hidx : newp.map (·.1) = path h i := by rw [R.pathIdx, above_zero]
  have hver : ∀ l, l < h → ∃ v, newp[l]? = some (nodeInner l (i / 2 ^ (l + 1)), ⟨[v]⟩) ∧ ver S k l = v ∧
      v.pk = ⟨g (ν l)⟩ ∧ s'.tree.innerD (nodeInner l (i / 2 ^ (l + 1))) = some ⟨[v]⟩ := by
    intro lv hlv
    have h2 : (newp.map (·.1))[lv]? = some (nodeInner lv (i / 2 ^ (lv + 1))) := by
      rw [hidx]; simp [path, hlv]
    rw [List.getElem?_map, Option.map_eq_some_iff] at h2
    obtain ⟨q, hq, hq1⟩ := h2
    have hq2 := R.pathVal q (List.mem_of_getElem? hq)
    obtain ⟨v, _, _, _, hv, _⟩ := R.good lv (Nat.zero_le _) hlv
    rw [hq1, hv] at hq2
    have hqe : q = (nodeInner lv (i / 2 ^ (lv + 1)), ⟨[v]⟩) := Prod.ext hq1 (Option.some.inj hq2).symm
    have hkey := R.nuKey lv (Nat.zero_le _) hlv
    rw [keyD_single hv] at hkey
    simp only [Option.some.injEq, NodeKey.share.injEq] at hkey
    refine ⟨v, by rw [hq, hqe], ?_, hkey, hv⟩
    unfold ver
    rw [s3]
    simp only [hq, hqe]
    rfl
  have hlf : lf S k = i := by unfold lf; rw [s3]
  refine ⟨⟨?_, by rw [s3, s1], by rw [s3]; exact ⟨_, rfl⟩, ?_, ?_, by rw [s2]; exact hk, ?_, ?_⟩, sv', good', hap,
    R.ids.trans hids, rfl, ?_, ?_, ν, ?_, ?_⟩
  · rw [hlf, s1, ← hids]; exact hid
  · rw [hlf, s3]; exact hidx
  · intro q hq
    rw [s3] at hq
    obtain ⟨lv, hlt, hlv⟩ := List.mem_iff_getElem.1 hq
    have hlen : newp.length = h := by
      have := congrArg List.length hidx
      simpa [path_length] using this
    have hlt' : lv < newp.length := hlt
    have hlth : lv < h := by omega
    obtain ⟨v, h2, h3, _⟩ := hver lv hlth
    refine ⟨lv, hlth, ?_⟩
    have : newp[lv]? = some q := by rw [List.getElem?_eq_getElem hlt']; exact congrArg some hlv
    rw [h2] at this
    rw [hlf, h3]
    exact (Option.some.inj this).symm
  · intro x hx y hy
    rw [s2] at hx ⊢
    exact hc x hx y hy
  · refine ⟨T, l, ?_, ?_, ?_⟩
    · rw [s2]; exact hT
    · rw [hlf]; exact hl
    · rw [s3, hlf]
  · have hpos := w.shape.pos
    obtain ⟨v, _, h3, _, h5⟩ := hver (h - 1) (by omega)
    have hroot := R.rootKey
    have h0 : i / 2 ^ (h - 1 + 1) = 0 := by
      rw [show h - 1 + 1 = h by omega]
      exact Nat.div_eq_of_lt hi
    rw [h0] at h5
    have h6 := keyD_single h5
    rw [show h - 1 + 1 = h by omega, hroot] at h6
    simp only [Option.some.injEq, NodeKey.share.injEq] at h6
    rw [h3, ← h6]
  · intro lv hlv
    obtain ⟨v, h2, h3, _⟩ := hver lv hlv
    rw [List.mem_flatMap]
    exact ⟨_, List.mem_of_getElem? h2, by rw [h3]; simp⟩
  · intro lv hlv
    obtain ⟨v, _, h3, h4, _⟩ := hver lv hlv
    rw [h3, h4]
  · intro a b ha hb hab
    rcases Nat.lt_trichotomy a b with hlt | heq | hlt
    · have := R.nuMono a b (Nat.zero_le _) hlt hb; omega
    · exact heq
    · have := R.nuMono b a (Nat.zero_le _) hlt ha; omega

/-- The tree right after an update holds it. -/
theorem made_holds (ap : Apart S t0 h U) (sv : SInv t0 h) {T T' : BeeKem} (w : SInv T h) (gT : Good T)
    (hids : T.idToLeafIdx = t0.idToLeafIdx) {k : Nat} (hT : Holds S t0 h (S k).past T) (uA : ∀ j ∈ (S k).past, U j)
    (vA : ∀ j ∈ (S k).past, Valid S t0 h j) (uk : U k) (vk : Valid S t0 h k) (hap : T.applyPath (S k).pc = .ok T') :
    Holds S t0 h (k :: (S k).past) T' := by
  obtain ⟨t', e1, _, _, e4⟩ := hT.apply ap sv w gT hids uA vA vk.closed uk vk vk.irrefl (fun _ h => h)
  rw [hap] at e1
  simp only [Except.ok.injEq] at e1
  rw [e1]
  exact e4

end

/-! ## Runs -/

/-- The keys of update `j` are among those drawn for it. -/
def Keyed (F : Nat → Nat → Sk) (S : Nat → Sent) (h j : Nat) : Prop :=
  (S j).pc.leafPk = .share ⟨F j 0⟩ ∧
  ∃ ν : Nat → Nat, (∀ l, l < h → (ver S j l).pk = ⟨F j (ν l + 1)⟩) ∧ ∀ l l', l < h → l' < h → ν l = ν l' → l = l'

/-- What holds of all replicas and updates. -/
structure NetInv (F : Nat → Nat → Sk) (S : Nat → Sent) (t0 : BeeKem) (h : Nat) (n : Net) : Prop where
  upd : ∀ j, j < n.sent.length → Valid S t0 h j
  after : ∀ j, j < n.sent.length → ∃ T, SInv T h ∧ Good T ∧ Holds S t0 h (j :: (S j).past) T
  sinv : ∀ id, SInv (n.at_ id).tree h
  good : ∀ id, Good (n.at_ id).tree
  ids : ∀ id, (n.at_ id).tree.idToLeafIdx = t0.idToLeafIdx
  holds : ∀ id, Holds S t0 h (n.at_ id).seen (n.at_ id).tree
  lt : ∀ id, ∀ j ∈ (n.at_ id).seen, j < n.sent.length
  closed : ∀ id, ∀ j ∈ (n.at_ id).seen, ∀ x ∈ (S j).past, x ∈ (n.at_ id).seen
  own : ∀ j, j < n.sent.length → ∀ id, (S j).who = id → j ∈ (n.at_ id).seen
  keyed : ∀ j, j < n.sent.length → Keyed F S h j
  past : ∀ j, j < n.sent.length → ∀ x ∈ (S j).past, x < j
  chain : ∀ j, j < n.sent.length → ∀ x, x < j → (S x).who = (S j).who → x ∈ (S j).past
  secret : ∀ j, j < n.sent.length → (ver S j (h - 1)).pk = ⟨(S j).secret⟩

theorem NetInv.apart {F : Nat → Nat → Sk} {S : Nat → Sent} {t0 : BeeKem} {h : Nat} {m : Nat} (hF : FreshFor F t0)
    (hk : ∀ j, j < m → Keyed F S h j) (hlt : ∀ j, j < m → ∀ x ∈ (S j).past, x < j)
    (hch : ∀ j, j < m → ∀ x, x < j → (S x).who = (S j).who → x ∈ (S j).past) : Apart S t0 h (· < m) := by
  refine ⟨?_, ⟨fun x => x, fun x y hy hx => hlt y hy x hx⟩, ?_, ?_, ?_⟩
  · intro x y hx hy hw
    rcases Nat.lt_trichotomy x y with h1 | h1 | h1
    · exact .inr (.inl (hch y hy x h1 hw))
    · exact .inl h1
    · exact .inr (.inr (hch x hx y h1 hw.symm))
  · intro j l x hj hl he hp
    obtain ⟨_, ν, hν, _⟩ := hk j hj
    rw [hν l hl, Pk.mk.injEq] at he
    rw [← he] at hp
    exact hF.2 _ _ hp
  · intro j x l hj hx hl hm
    obtain ⟨_, ν, hν, _⟩ := hk j hj
    rw [(hk x hx).1, hν l hl] at hm
    simp only [NodeKey.keys, List.mem_singleton, Pk.mk.injEq] at hm
    have := (hF.1 _ _ _ _ hm).2
    omega
  · intro j x l l' hj hx hl hl' he
    obtain ⟨_, ν, hν, _⟩ := hk j hj
    obtain ⟨_, ν', hν', _⟩ := hk x hx
    rw [hν l hl, hν' l' hl', Pk.mk.injEq] at he
    exact (hF.1 _ _ _ _ he).1

theorem netInv_run {F : Nat → Nat → Sk} {t0 : BeeKem} {h : Nat} (hF : FreshFor F t0) (sv : SInv t0 h) (g0 : Good t0)
    {n : Net} (hn : Net.Run F t0 n) :
    ∀ {S : Nat → Sent}, (∀ j u, n.sent[j]? = some u → S j = u) → NetInv F S t0 h n := by
  induction hn with
  | start =>
    intro S _
    exact ⟨by simp, by simp, fun _ => sv, fun _ => g0, fun _ => rfl, fun _ => holds_nil t0, by simp, by simp, by simp, by simp, by simp,
      by simp, by simp⟩
  | @step n n' _ hst ih =>
    intro S hS
    cases hst with
    | @update id c sks t sks' rng r pc hsk he =>
      have I : NetInv F S t0 h n := ih (fun j u hj => hS j u (by
        have : j < n.sent.length := (List.getElem?_eq_some_iff.1 hj).1
        rw [List.getElem?_append_left this]; exact hj))
      have hSk : S n.sent.length = ⟨id, (n.at_ id).seen, pc, r⟩ := hS _ _ (by simp)
      generalize hk : n.sent.length = k at *
      have hkseen : k ∉ (n.at_ id).seen := fun hc => by have := I.lt id k hc; omega
      obtain ⟨vk, sv', good', hap, hids', hlp, hsec, _, ν, hν, hνi⟩ := made_valid (S := S) (k := k) (I.sinv id) (I.good id)
        (I.ids id) (I.holds id) hsk he (by rw [hSk]) (by rw [hSk]) (by rw [hSk]) hkseen (fun x hx => I.closed id x hx)
      have hkeyed : ∀ j, j < k + 1 → Keyed F S h j := by
        intro j hj
        by_cases hjk : j = k
        · subst hjk
          exact ⟨by rw [hSk]; exact hlp, ν, hν, hνi⟩
        · exact I.keyed j (by omega)
      have hpast : ∀ j, j < k + 1 → ∀ x ∈ (S j).past, x < j := by
        intro j hj
        by_cases hjk : j = k
        · subst hjk
          intro x hx
          rw [hSk] at hx
          have := I.lt id x hx
          omega
        · exact I.past j (by omega)
      have hchain : ∀ j, j < k + 1 → ∀ x, x < j → (S x).who = (S j).who → x ∈ (S j).past := by
        intro j hj
        by_cases hjk : j = k
        · subst hjk
          intro x hx hwho
          rw [hSk] at hwho ⊢
          exact I.own x (by omega) id hwho
        · exact I.chain j (by omega)
      have ap : Apart S t0 h (· < k + 1) := NetInv.apart hF hkeyed hpast hchain
      have hafter : Holds S t0 h (k :: (n.at_ id).seen) t := by
        have := made_holds (k := k) ap sv (I.sinv id) (I.good id) (I.ids id) (by rw [hSk]; exact I.holds id)
          (by rw [hSk]; intro j hj; have := I.lt id j hj; show j < k + 1; omega)
          (by rw [hSk]; intro j hj; exact I.upd j (by have := I.lt id j hj; omega)) (Nat.lt_succ_self k) vk
          (by rw [hSk]; exact hap)
        rw [hSk] at this
        exact this
      have hlen : (n.sent ++ [(⟨id, (n.at_ id).seen, pc, r⟩ : Sent)]).length = k + 1 := by
        simp [hk]
      have hput : ∀ j, n.put id ⟨t, k :: (n.at_ id).seen⟩ j = if j = id then ⟨t, k :: (n.at_ id).seen⟩ else n.at_ j :=
        fun _ => rfl
      refine ⟨?_, ?_, ?_, ?_, ?_, ?_, ?_, ?_, ?_, by rw [hlen]; exact hkeyed, by rw [hlen]; exact hpast,
        by rw [hlen]; exact hchain, ?_⟩
      · intro j hj
        rw [hlen] at hj
        by_cases hjk : j = k
        · rw [hjk]; exact vk
        · exact I.upd j (by omega)
      · intro j hj
        rw [hlen] at hj
        by_cases hjk : j = k
        · subst hjk
          refine ⟨t, sv', good', ?_⟩
          rw [hSk]
          exact hafter
        · exact I.after j (by omega)
      · intro x
        simp only [hput]
        split
        · exact sv'
        · exact I.sinv x
      · intro x
        simp only [hput]
        split
        · exact good'
        · exact I.good x
      · intro x
        simp only [hput]
        split
        · exact hids'
        · exact I.ids x
      · intro x
        simp only [hput]
        split
        · exact hafter
        · exact I.holds x
      · intro x j hj
        rw [hlen]
        simp only [hput] at hj
        split at hj
        · rcases List.mem_cons.1 hj with rfl | hj
          · omega
          · have := I.lt id j hj; omega
        · have := I.lt x j hj; omega
      · intro x j hj y hy
        simp only [hput] at hj ⊢
        split at hj
        · rename_i hx
          rw [if_pos hx]
          rcases List.mem_cons.1 hj with rfl | hj
          · rw [hSk] at hy
            exact List.mem_cons_of_mem _ hy
          · exact List.mem_cons_of_mem _ (I.closed id j hj y hy)
        · rename_i hx
          rw [if_neg hx]
          exact I.closed x j hj y hy
      · intro j hj x hwho
        rw [hlen] at hj
        simp only [hput]
        by_cases hjk : j = k
        · subst hjk
          rw [hSk] at hwho
          simp only at hwho
          rw [if_pos hwho.symm]
          simp
        · have := I.own j (by omega) x hwho
          split
          · rename_i hx
            rw [hx] at this
            exact List.mem_cons_of_mem _ this
          · exact this
      · intro j hj
        rw [hlen] at hj
        by_cases hjk : j = k
        · subst hjk
          rw [hSk]
          exact hsec
        · exact I.secret j (by omega)
    | @deliver id k u t hu hk hpast he =>
      have I : NetInv F S t0 h n := ih hS
      have hSk : S k = u := hS k u hu
      have hlt : k < n.sent.length := (List.getElem?_eq_some_iff.1 hu).1
      have vk := I.upd k hlt
      have hput : ∀ j, n.put id ⟨t, k :: (n.at_ id).seen⟩ j = if j = id then ⟨t, k :: (n.at_ id).seen⟩ else n.at_ j :=
        fun _ => rfl
      have ap := NetInv.apart hF I.keyed I.past I.chain
      obtain ⟨t', e1, e2, e3, e4⟩ := (I.holds id).apply ap sv (I.sinv id) (I.good id) (I.ids id) (I.lt id)
        (fun j hj => I.upd j (I.lt id j hj)) (I.closed id) hlt vk hk (by rw [hSk]; exact hpast)
      rw [hSk, he] at e1
      simp only [Except.ok.injEq] at e1
      subst e1
      have hlts : ∀ j ∈ k :: (n.at_ id).seen, j < n.sent.length := by
        intro j hj
        rcases List.mem_cons.1 hj with rfl | hj
        · exact hlt
        · exact I.lt id j hj
      have hcl : ∀ j ∈ k :: (n.at_ id).seen, ∀ x ∈ (S j).past, x ∈ k :: (n.at_ id).seen := by
        intro j hj x hx
        rcases List.mem_cons.1 hj with rfl | hj
        · rw [hSk] at hx
          exact List.mem_cons_of_mem _ (hpast x hx)
        · exact List.mem_cons_of_mem _ (I.closed id j hj x hx)
      have hg := e4.good ap sv g0 e2 hlts (fun j hj => I.upd j (hlts j hj)) (fun j hj => I.after j (hlts j hj)) hcl
      refine ⟨I.upd, I.after, ?_, ?_, ?_, ?_, ?_, ?_, ?_, I.keyed, I.past, I.chain, I.secret⟩
      · intro x
        simp only [hput]
        split
        · exact e2
        · exact I.sinv x
      · intro x
        simp only [hput]
        split
        · exact hg
        · exact I.good x
      · intro x
        simp only [hput]
        split
        · exact e3
        · exact I.ids x
      · intro x
        simp only [hput]
        split
        · exact e4
        · exact I.holds x
      · intro x j hj
        simp only [hput] at hj
        split at hj
        · exact hlts j hj
        · exact I.lt x j hj
      · intro x j hj y hy
        simp only [hput] at hj ⊢
        split at hj
        · rename_i hx
          rw [if_pos hx]
          exact hcl j hj y hy
        · rename_i hx
          rw [if_neg hx]
          exact I.closed x j hj y hy
      · intro j hj x hwho
        simp only [hput]
        have := I.own j hj x hwho
        split
        · rename_i hx
          rw [hx] at this
          exact List.mem_cons_of_mem _ this
        · exact this

/-- All trees of such groups. -/
theorem grounded_good {t : BeeKem} (ht : Grounded t) : ∃ h, SInv t h ∧ Good t := by
  induction ht with
  | @new id sk t he =>
    obtain ⟨t', h1, h2, h3, _⟩ := new_ok id ⟨sk⟩
    rw [he] at h1
    simp only [Except.ok.injEq] at h1
    subst h1
    exact ⟨1, h2, h3⟩
  | @add t t' id sk i _ hnc hp ih =>
    obtain ⟨h, sv, g⟩ := ih
    obtain ⟨t2, h', h1, h2, _, _, h5, h6, h7⟩ := pushLeaf_full sv.toWInv id (.share ⟨sk⟩)
    rw [hp] at h1
    simp only [Except.ok.injEq, Prod.mk.injEq] at h1
    obtain ⟨rfl, rfl⟩ := h1
    have hnone : AMap.get t.idToLeafIdx id = none := by
      unfold containsId AMap.contains at hnc
      simpa using hnc
    have sv' := pushLeaf_strong sv (.share ⟨sk⟩) hnone h2 h5 h6
    refine ⟨h', sv', g.blank sv'.shape h7 ?_⟩
    intro j l hj
    rw [h6] at hj
    split at hj
    · rw [← Option.some.inj hj]
      exact ⟨sk, rfl⟩
    · exact g.single.leaf j l hj
  | @remove t t' id i removed _ hr ih =>
    obtain ⟨h, sv, g⟩ := ih
    have hlen : t.memberCount ≠ 1 := by
      intro hc
      unfold removeId at hr
      rw [if_pos hc] at hr
      simp at hr
    obtain ⟨i', hid⟩ : ∃ i', AMap.get t.idToLeafIdx id = some i' := by
      cases hg : AMap.get t.idToLeafIdx id with
      | some i' => exact ⟨i', rfl⟩
      | none =>
        unfold removeId leafIndexForId at hr
        rw [if_neg hlen] at hr
        simp [hg, bind, Except.bind] at hr
    obtain ⟨t2, B, h1, h2, h3, h4, h5, h6, h7⟩ := removeId_ok sv.toWInv hid hlen
    rw [hr] at h1
    simp only [Except.ok.injEq, Prod.mk.injEq] at h1
    obtain ⟨rfl, rfl, rfl⟩ := h1
    have sv' := removeId_strong sv hid h2 h3 h4
    refine ⟨h, sv', g.blank sv'.shape h7 ?_⟩
    intro j l hj
    rw [h4] at hj
    split at hj
    · simp at hj
    · exact g.single.leaf j l hj
  | @updates t F n id _ hF hn ih =>
    obtain ⟨h, sv, g⟩ := ih
    have I := netInv_run hF sv g hn (S := fun j => (n.sent[j]?).getD ⟨0, [], ⟨0, 0, .share ⟨0⟩, [], []⟩, 0⟩)
      (fun j u hj => by simp [hj])
    exact ⟨h, I.sinv id, I.good id⟩

end BeeKem

end Verif.BeeKem
