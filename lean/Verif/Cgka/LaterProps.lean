import Verif.Cgka.Rederive
import Verif.Cgka.Props

/-!
# Property theorems: latest adds, heads after a merge, deriving old secrets again (C13, C19, C73)
-/

namespace Verif.Cgka.LaterProps

open Verif.BeeKem Verif.Cgka Verif.Cgka.Props

/-! ## Latest adds (C13) -/

/-- C13, for adds: every operation listed as a latest add is a known add, and every known add that no known operation
names as an add it builds on is listed. -/
theorem C13_add_heads {H : SOp → Nat} (hH : Function.Injective H) {c : Cgka} (hr : Reach H c) :
    (∀ x ∈ c.graph.addHeads, ∃ o, AMap.get c.graph.ops x = some o ∧ o.payload.isAdd = true) ∧
    ∀ x o, AMap.get c.graph.ops x = some o → o.payload.isAdd = true →
      (∀ y o', AMap.get c.graph.ops y = some o' → x ∉ o'.payload.addPreds) → x ∈ c.graph.addHeads := by
  have := reach_ainv hH hr
  exact ⟨this.sound, this.full⟩

-- After Bob's add and Alice's concurrent update, Bob's add is the latest add; Alice's update is a head.
open Sample in
example : Reach H aliceMerged ∧ aliceMerged.graph.addHeads = [6] ∧ aliceMerged.graph.heads = [6, 7] ∧
    AMap.get aliceMerged.graph.ops 6 = some o6 ∧ o6.payload.isAdd = true ∧
    (∀ q ∈ aliceMerged.graph.ops, 6 ∉ q.2.payload.addPreds) :=
  ⟨aliceMerged_reach, by decide +kernel, by decide +kernel, by decide +kernel, rfl, by decide +kernel⟩

/-! ## Heads after merging a fork (C19) -/

/-- C19, for the heads: after merging a fork, every known operation is a head or in the past of a head, every operation
that nothing builds on is a head, and every head is known. Missing: that heads have no successors, which is false
(`C19_heads_wrong`). -/
theorem C19_heads_cover_partial {H : SOp → Nat} (hH : Function.Injective H) {c fork c' : Cgka}
    (hc : Reach H c) (hf : Reach H fork) (h : c.merge H fork = .ok c') :
    (∀ x, Knows c' x → Past c' c'.graph.heads x) ∧
    (∀ x, Knows c' x → (∀ y, ¬ Names c' x y) → x ∈ c'.graph.heads) ∧
    ∀ x ∈ c'.graph.heads, Knows c' x := by
  have hops := (C19_merge_keeps_everything_partial hH hc hf h).1
  have hheads : ∀ x, x ∈ c'.graph.heads ↔ x ∈ c.graph.heads ∨ x ∈ fork.graph.heads := by
    intro x
    unfold Cgka.merge at h
    simp only at h
    split at h
    · rename_i c2 hr
      cases h
      rw [(Ext.replay hr).graph]
      show x ∈ sextend c.graph.heads fork.graph.heads ↔ _
      rw [mem_sextend]
    · simp at h
  have hkn : ∀ x, Knows c' x ↔ Knows c x ∨ Knows fork x := by
    intro x
    unfold Knows
    simp only [hops]
    constructor
    · rintro ⟨o, h1 | h1⟩
      · exact Or.inl ⟨o, h1⟩
      · exact Or.inr ⟨o, h1⟩
    · rintro (⟨o, h1⟩ | ⟨o, h1⟩)
      · exact ⟨o, Or.inl h1⟩
      · exact ⟨o, Or.inr h1⟩
  have n1 : ∀ {p x}, Names c p x → Names c' p x := fun ⟨o, h1, h2⟩ => ⟨o, (hops _ _).2 (Or.inl h1), h2⟩
  have n2 : ∀ {p x}, Names fork p x → Names c' p x := fun ⟨o, h1, h2⟩ => ⟨o, (hops _ _).2 (Or.inr h1), h2⟩
  have b1 : ∀ {p x}, Before c p x → Before c' p x := by
    intro p x hb
    induction hb with
    | direct h1 => exact .direct (n1 h1)
    | more _ h1 ih => exact .more ih (n1 h1)
  have b2 : ∀ {p x}, Before fork p x → Before c' p x := by
    intro p x hb
    induction hb with
    | direct h1 => exact .direct (n2 h1)
    | more _ h1 ih => exact .more ih (n2 h1)
  refine ⟨?_, ?_, ?_⟩
  · intro x hx
    rcases (hkn x).1 hx with hx | hx
    · rcases (C13_heads_cover hH hc x).1 hx with h1 | ⟨y, hy, h1⟩
      · exact Or.inl ((hheads x).2 (Or.inl h1))
      · exact Or.inr ⟨y, (hheads y).2 (Or.inl hy), b1 h1⟩
    · rcases (C13_heads_cover hH hf x).1 hx with h1 | ⟨y, hy, h1⟩
      · exact Or.inl ((hheads x).2 (Or.inr h1))
      · exact Or.inr ⟨y, (hheads y).2 (Or.inr hy), b2 h1⟩
  · intro x hx hn
    rw [hheads]
    rcases (hkn x).1 hx with hx | hx
    · exact Or.inl (((C13_heads_exact hH hc).2.2 x).2 ⟨hx, fun y hy => hn y (n1 hy)⟩)
    · exact Or.inr (((C13_heads_exact hH hf).2.2 x).2 ⟨hx, fun y hy => hn y (n2 hy)⟩)
  · intro x hx
    rw [hkn]
    rcases (hheads x).1 hx with hx | hx
    · exact Or.inl (((C13_heads_exact hH hc).2.2 x).1 hx).1
    · exact Or.inr (((C13_heads_exact hH hf).2.2 x).1 hx).1

-- Alice merges a fork that knows two more operations.
example : Reach ForkSample.H (ForkSample.alice3 ForkSample.H) ∧ Reach ForkSample.H (ForkSample.fork ForkSample.H) ∧
    (∃ c, (ForkSample.alice3 ForkSample.H).merge ForkSample.H (ForkSample.fork ForkSample.H) = .ok c) ∧
    5 ∈ (ForkSample.aliceMerged ForkSample.H).graph.heads :=
  ⟨reachOk_reach ForkSample.alice3_ok, reachOk_reach ForkSample.fork_ok, Sample.ok_of (by decide +kernel), by decide +kernel⟩

/-- C19, for the latest adds: after merging a fork they are the latest adds of both sides, and every known add that no known
operation names as an add it builds on is among them. -/
theorem C19_add_heads {H : SOp → Nat} (hH : Function.Injective H) {c fork c' : Cgka}
    (hc : Reach H c) (hf : Reach H fork) (h : c.merge H fork = .ok c') :
    (∀ x, x ∈ c'.graph.addHeads ↔ x ∈ c.graph.addHeads ∨ x ∈ fork.graph.addHeads) ∧
    ∀ x o, AMap.get c'.graph.ops x = some o → o.payload.isAdd = true →
      (∀ y o', AMap.get c'.graph.ops y = some o' → x ∉ o'.payload.addPreds) → x ∈ c'.graph.addHeads := by
  have hops := (C19_merge_keeps_everything_partial hH hc hf h).1
  have hheads : ∀ x, x ∈ c'.graph.addHeads ↔ x ∈ c.graph.addHeads ∨ x ∈ fork.graph.addHeads := by
    intro x
    unfold Cgka.merge at h
    simp only at h
    split at h
    · rename_i c2 hr
      cases h
      rw [(Ext.replay hr).graph]
      show x ∈ sextend c.graph.addHeads fork.graph.addHeads ↔ _
      rw [mem_sextend]
    · simp at h
  refine ⟨hheads, fun x o ho ha hn => (hheads x).2 ?_⟩
  rcases (hops x o).1 ho with h1 | h1
  · exact .inl ((C13_add_heads hH hc).2 x o h1 ha (fun y o' hy => hn y o' ((hops y o').2 (.inl hy))))
  · exact .inr ((C13_add_heads hH hf).2 x o h1 ha (fun y o' hy => hn y o' ((hops y o').2 (.inr hy))))

/-! ## Deriving the secret of an earlier update again (C73) -/

/-- C73: a replica that knows everything another replica knew right after the operation `x` derives for `x` the very
secret (or the very error) it would obtain from the tree the other replica held then, with its own keys. Whatever it has
learnt since, in whatever order, makes no difference. Missing: histories in which an operation names a redundant predecessor
or in which there are two first operations, for which the claim is false (`C62_fails_after_fork_merge`), and replicas whose
signers failed. -/
theorem C73_rederives_partial {H : SOp → Nat} (hH : Function.Injective H) {c c0 : Cgka} (hr : ReachOk H c) (hr0 : ReachOk H c0)
    (h1 : OneRoot c) (h2 : Tidy c0) {x : Nat} (hh : c0.graph.heads = [x]) (hk : ∀ y, Knows c0 y → Knows c y) :
    (c.derivePcsKeyForOp H x).map (·.2) = ((c0.withNewOwner c.ownerId c.ownerSks).pcsKeyFromTreeRoot).map (·.2) := by
  have sc := reachOk_inv hH hr
  have s0 := reachOk_inv hH hr0
  have hsub : Sub c0.graph c.graph := by
    intro y o ho
    obtain ⟨o', ho'⟩ := hk y ⟨o, ho⟩
    rw [ho', hH ((sc.graph.hash y o' ho').trans (s0.graph.hash y o ho).symm)]
  have nameEq : ∀ {p y}, Knows c0 y → (Names c p y ↔ Names c0 p y) := by
    intro p y hy
    rw [names_iff sc.graph, names_iff s0.graph]
    exact (hsub.pred s0.graph sc.graph ((knows_iff _ _).1 hy)).symm
  have h10 : OneRoot c0 := by
    intro a b ha hb na nb
    exact h1 a b (hk a ha) (hk b hb) (fun p hp => na p ((nameEq ha).1 hp)) (fun p hp => nb p ((nameEq hb).1 hp))
  have rootOf : ∀ {d : Cgka}, SInv H d → ∀ p, ¬ Names d p (H d.initAddOp) := by
    rintro d sd p ⟨o, ho, hp⟩
    rw [sd.root.1] at ho
    cases ho
    rw [sd.root.2.preds] at hp
    cases hp
  have k0 : Knows c0 (H c0.initAddOp) := ⟨_, s0.root.1⟩
  have hinit : c.initAddOp = c0.initAddOp :=
    hH (h1 _ _ ⟨_, sc.root.1⟩ (hk _ k0) (rootOf sc) (fun p hp => rootOf s0 p ((nameEq k0).1 hp)))
  have horig : c.originalMember = c0.originalMember := by
    have h3 := sc.root.2
    rw [hinit] at h3
    exact Prod.ext (h3.unique s0.root.2).1 (h3.unique s0.root.2).2
  have hr0' : ReachOk H (c0.withNewOwner c.ownerId c.ownerSks) := .owner _ _ hr0
  obtain ⟨es, start, r, e1, e2, e3, e4⟩ :=
    C15_single_head_replays_partial hH hr0' (c := c0.withNewOwner c.ownerId c.ownerSks) h10
      ((tidy_iff (c := c0.withNewOwner c.ownerId c.ownerSks) s0.graph).2 ((tidy_iff s0.graph).1 h2)) (by show c0.graph.heads.length = 1; rw [hh]; rfl)
  have hstart : c.rebuildStart H = .ok start := by
    rw [← e2]
    unfold Cgka.rebuildStart
    rw [hinit, horig]
    rfl
  have hts : c.graph.topsortForHeads [x] = .ok es := topsort_sub hsub s0.graph sc.graph hh e1
  have kx : Knows c x := hk x (((C13_heads_exact hH (reachOk_reach hr0)).2.2 x).1 (by rw [hh]; simp)).1
  obtain ⟨es', hts', ho⟩ := C14_replay_order_partial hH (reachOk_reach hr) h1 (heads := [x]) (by simp) (by simp)
    (by intro y hy; rw [List.mem_singleton.1 hy]; exact kx)
  rw [hts] at hts'
  cases hts'
  have hlast : ∃ n, Cgka.lastHash H es = .ok n := by
    have hne : es ≠ [] := by
      rintro rfl
      have := (ho.exactly x).2 (Or.inl (by simp))
      simp at this
    unfold Cgka.lastHash
    rw [List.getLast?_eq_some_getLast hne]
    cases hl : es.getLast hne with
    | nil => exact absurd hl (ho.nonempty _ (List.getLast_mem hne))
    | cons a l => exact ⟨_, rfl⟩
  obtain ⟨n, hn⟩ := hlast
  obtain ⟨f1, f2⟩ : r.ownerId = c.ownerId ∧ r.ownerSks = c.ownerSks := by
    have fa := applyEpochs_frame e3
    have fb := rebuildStart_frame hstart
    simp_all
  rw [← treeRoot_congr (c := r) (d := c0.withNewOwner c.ownerId c.ownerSks) e4 f1 f2]
  unfold Cgka.derivePcsKeyForOp
  have hcon : c.graph.containsOpHash x = true := by
    rw [containsOpHash_iff]; exact (knows_iff _ _).1 kx
  simp only [hcon, Bool.not_true, Bool.false_eq_true, if_false, hts, bind, Except.bind, Cgka.rebuildPcsKey, hstart, e3]
  cases r.pcsKeyFromTreeRoot with
  | error e => rfl
  | ok p => simp only [hn]; rfl

-- Bob, who has since added Dave and received Alice's second update, derives the secret of their first update again.
open Sample in
example : ReachOk H bobMerged ∧ ReachOk H alice3 ∧ OneRoot bobMerged ∧ Tidy alice3 ∧ alice3.graph.heads = [3] ∧
    (∀ q ∈ alice3.graph.ops, Knows bobMerged q.1) ∧ (bobMerged.derivePcsKeyForOp H 3).map (·.2) = .ok 1001 ∧
    bobMerged.graph.heads.length = 2 := by
  refine ⟨bobMerged_ok, alice3_ok, oneRoot_of 0 (by decide +kernel), tidy_of id (by decide +kernel) (by decide +kernel),
    by decide +kernel, ?_, by decide +kernel, by decide +kernel⟩
  simp only [knows_of]
  decide +kernel

/-- C73, for content: what somebody encrypted with the secret `k` right after the operation `x` is opened by a replica that
knows that history and whose keys give `k` on the tree of that moment, although it has never derived `k` before, and
whatever its current group secret is. (`sks`: the share keys before and after trying the current tree.) Missing: as in
`C73_rederives_partial`. -/
theorem C73_content_partial {H : SOp → Nat} (hH : Function.Injective H) {c c0 : Cgka} (hr : ReachOk H c) (hr0 : ReachOk H c0)
    (h1 : OneRoot c) (h2 : Tidy c0) {x : Nat} (hh : c0.graph.heads = [x]) (hk : ∀ y, Knows c0 y → Knows c y)
    {b : Bool} (hb : c.hasPcsKey = .ok b) (hp : ∀ e, c.pcsKeyFromTreeRoot = .error e → fatal e = false)
    {k : Sk} (hd : ∀ sks, (sks = c.ownerSks ∨ ∃ c1 k1, c.pcsKeyFromTreeRoot = .ok (c1, k1) ∧ sks = c1.ownerSks) →
      ∃ s, (c0.withNewOwner c.ownerId sks).pcsKeyFromTreeRoot = .ok (s, k))
    (r ps p : Nat) :
    ∃ key, (c.decryptionKeyFor H ((deriveApplicationSecret k r ps x).encrypt p)).2 = .ok key ∧
      ((deriveApplicationSecret k r ps x).encrypt p).openWith key = some p := by
  have hcoh := (reachOk_inv hH hr).coh
  refine ⟨⟨k, ps, r⟩, ?_, by simp [EncContent.openWith, AppSecret.encrypt, deriveApplicationSecret]⟩
  suffices hs : (c.pcsKeyFromHashes H ⟨k⟩ x).2 = .ok k by
    unfold Cgka.decryptionKeyFor
    simp only [AppSecret.encrypt, deriveApplicationSecret]
    cases hq : c.pcsKeyFromHashes H ⟨k⟩ x with
    | mk c1 q =>
      rw [hq] at hs
      dsimp only at hs
      subst hs
      rfl
  have derive : ∀ sks, (sks = c.ownerSks ∨ ∃ c1 k1, c.pcsKeyFromTreeRoot = .ok (c1, k1) ∧ sks = c1.ownerSks) →
      ∃ c2, (c.withNewOwner c.ownerId sks).derivePcsKeyForOp H x = .ok (c2, k) := by
    intro sks hsk
    have := C73_rederives_partial hH (c := c.withNewOwner c.ownerId sks) (.owner _ _ hr) hr0 h1 h2 hh hk
    obtain ⟨s, hs⟩ := hd sks hsk
    change _ = ((c0.withNewOwner c.ownerId sks).pcsKeyFromTreeRoot).map (·.2) at this
    rw [hs] at this
    cases hq : (c.withNewOwner c.ownerId sks).derivePcsKeyForOp H x with
    | error e => rw [hq] at this; simp [Except.map] at this
    | ok q =>
      rw [hq] at this
      simp only [Except.map, Except.ok.injEq] at this
      exact ⟨q.1, by rw [← this]⟩
  unfold Cgka.pcsKeyFromHashes
  cases hg : AMap.get c.pcsKeys (⟨k⟩ : PcsHash) with
  | some k' =>
    have := hcoh.val _ _ hg
    simp only [PcsHash.mk.injEq] at this
    simp only [this]
  | none =>
    dsimp only
    have miss : ∃ c2, c.derivePcsKeyForOp H x = .ok (c2, k) := derive c.ownerSks (Or.inl rfl)
    unfold Cgka.currentRootFor
    rw [hb]
    cases b with
    | false =>
      obtain ⟨c2, h3⟩ := miss
      simp only [h3]
    | true =>
      dsimp only
      cases hroot : c.pcsKeyFromTreeRoot with
      | error e =>
        obtain ⟨c2, h3⟩ := miss
        simp only [hp e hroot, Bool.false_eq_true, if_false, h3]
      | ok q =>
        obtain ⟨c1, k1⟩ := q
        dsimp only
        by_cases hkk : (⟨k1⟩ : PcsHash) = ⟨k⟩
        · rw [if_pos hkk]
          simp only [PcsHash.mk.injEq] at hkk
          rw [hkk]
        · rw [if_neg hkk]
          obtain ⟨c2, h3⟩ := derive c1.ownerSks (Or.inr ⟨c1, k1, hroot, rfl⟩)
          have hc1 : c.withNewOwner c.ownerId c1.ownerSks = c1 := treeRoot_sks hroot
          rw [hc1] at h3
          simp only [h3]

-- Bob has received Alice's second update before reading anything; their current secret is 1011, the content needs 1001.
open Sample in
example : ReachOk H bob7 ∧ ReachOk H alice3 ∧ OneRoot bob7 ∧ Tidy alice3 ∧ alice3.graph.heads = [3] ∧
    (∀ q ∈ alice3.graph.ops, Knows bob7 q.1) ∧ bob7.hasPcsKey = .ok true ∧ AMap.get bob7.pcsKeys ⟨1001⟩ = none ∧
    (bob7.pcsKeyFromTreeRoot).map (·.2) = .ok 1011 ∧
    ((alice3.withNewOwner bob7.ownerId bob7.ownerSks).pcsKeyFromTreeRoot).map (·.2) = .ok 1001 ∧
    ((alice3.withNewOwner bob7.ownerId (match bob7.pcsKeyFromTreeRoot with | .ok (c1, _) => c1.ownerSks | .error _ => [])).pcsKeyFromTreeRoot).map (·.2) = .ok 1001 := by
  refine ⟨bob7_ok, alice3_ok, oneRoot_of 0 (by decide +kernel), tidy_of id (by decide +kernel) (by decide +kernel),
    by decide +kernel, ?_, by decide +kernel, by decide +kernel, by decide +kernel, by decide +kernel, by decide +kernel⟩
  simp only [knows_of]
  decide +kernel

end Verif.Cgka.LaterProps
