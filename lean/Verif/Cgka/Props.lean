import Verif.Cgka.Order
import Verif.Cgka.Digest
import Verif.Cgka.ContentKey
import Verif.Cgka.ForkSample

/-!
# Properties of group key agreement (C11–C19, C61–C63)

`H` is the digest of signed operations and is assumed collision free (`Function.Injective H`). The vocabulary is in
`Verif.Cgka.Spec`.
-/

namespace Verif.Cgka.Props

open Verif.BeeKem Verif.Cgka Relation

/-! ## Delivery (C11) -/

/-- C11: an operation with an unknown predecessor is refused and nothing at all changes. -/
theorem C11_unknown_past_refused (H : SOp → Nat) (c : Cgka) (op : SOp) (hnew : ¬ Knows c (H op))
    (hp : ∃ p ∈ op.payload.preds, ¬ Knows c p) :
    c.mergeConcurrentOperation H op = (c, .error .outOfOrderOperation) := by
  rw [knows_iff, not_not] at hnew
  obtain ⟨p, hp, hk⟩ := hp
  rw [knows_iff, not_not] at hk
  unfold Cgka.mergeConcurrentOperation
  rw [if_neg (by rw [containsOpHash_iff]; simp [hnew]), if_pos]
  have : ¬ c.graph.containsPredecessors op.payload.preds = true := by
    rw [containsPredecessors_iff]
    intro hc
    exact hc p hp hk
  simpa using this

-- Bob, who knows only the first operation, is sent Carol's addition.
open Sample in
example : ¬ Knows bob0 (H o2) ∧ (∃ p ∈ o2.payload.preds, ¬ Knows bob0 p) := by
  simp only [knows_of]
  exact ⟨by decide +kernel, 1, by decide +kernel, by decide +kernel⟩

/-- C11: an operation that is already known is accepted and nothing at all changes. -/
theorem C11_known_changes_nothing (H : SOp → Nat) (c : Cgka) (op : SOp) (hk : Knows c (H op)) :
    c.mergeConcurrentOperation H op = (c, .ok false) := by
  rw [knows_iff] at hk
  unfold Cgka.mergeConcurrentOperation
  rw [if_pos ((containsOpHash_iff _ _).2 hk)]

open Sample in
example : Knows bob3 (H o2) := by rw [knows_of]; decide +kernel

theorem receive_cases (H : SOp → Nat) (c : Cgka) (op : SOp) :
    (c.mergeConcurrentOperation H op).1.graph = c.graph ∧ (c.mergeConcurrentOperation H op).2 ≠ .ok true ∨
    (c.mergeConcurrentOperation H op).1.graph = c.graph.addOp H op op.payload.preds ∧
      (c.mergeConcurrentOperation H op).2 = .ok true ∧ AMap.get c.graph.ops (H op) = none := by
  unfold Cgka.mergeConcurrentOperation
  by_cases h1 : c.graph.containsOpHash (H op) = true
  · rw [if_pos h1]; exact Or.inl ⟨rfl, by simp⟩
  · rw [if_neg h1]
    have hf : AMap.get c.graph.ops (H op) = none := by
      rw [containsOpHash_iff] at h1; simpa using h1
    split
    · exact Or.inl ⟨rfl, by simp⟩
    · split
      · split
        · exact Or.inr ⟨rfl, rfl, hf⟩
        · split
          · exact Or.inr ⟨rfl, rfl, hf⟩
          · split
            · exact Or.inl ⟨rfl, by simp⟩
            · rename_i c1 ha
              exact Or.inr ⟨(applyOperation_tree hf ha).2, rfl, hf⟩
      · split
        · exact Or.inl ⟨rfl, by simp⟩
        · rename_i c1 hr
          have hx := Ext.replayIfNeeded hr
          split
          · exact Or.inl ⟨hx.graph, by simp⟩
          · rename_i c2 ha
            refine Or.inr ⟨?_, rfl, hf⟩
            rw [(applyOperation_tree (by rw [hx.graph]; exact hf) ha).2, hx.graph]

/-- C11: delivery adds exactly the delivered operation when it reports a change, and no operation otherwise; once it
has reported a change, delivering the same operation again changes nothing. -/
theorem C11_applied_once (H : SOp → Nat) (c c' : Cgka) (op : SOp) (r : Res Bool)
    (h : c.mergeConcurrentOperation H op = (c', r)) :
    (∀ x, Knows c' x ↔ Knows c x ∨ (r = .ok true ∧ x = H op)) ∧
    (r = .ok true → ¬ Knows c (H op) ∧ c'.mergeConcurrentOperation H op = (c', .ok false)) := by
  have hc := receive_cases H c op
  rw [h] at hc
  rcases hc with ⟨h1, h2⟩ | ⟨h1, h2, h3⟩
  · refine ⟨?_, fun hr => absurd hr h2⟩
    intro x
    simp only [knows_iff]
    constructor
    · intro hx
      rw [h1] at hx
      exact Or.inl hx
    · rintro (hx | ⟨hr, _⟩)
      · rw [h1]; exact hx
      · exact absurd hr h2
  · have h1 : c'.graph = c.graph.addOp H op op.payload.preds := h1
    have h2 : r = .ok true := h2
    have hk : ∀ x, AMap.get c'.graph.ops x ≠ none ↔ AMap.get c.graph.ops x ≠ none ∨ x = H op := by
      intro x
      rw [h1]
      show AMap.get (AMap.insert c.graph.ops (H op) op) x ≠ none ↔ _
      rw [AMap.get_insert]
      by_cases hx : x = H op <;> simp [hx]
    refine ⟨?_, fun _ => ⟨?_, ?_⟩⟩
    · intro x
      rw [knows_iff, knows_iff, hk]
      simp [h2]
    · rw [knows_iff]; simp [h3]
    · exact C11_known_changes_nothing H c' op ((knows_iff _ _).2 ((hk _).2 (Or.inr rfl)))

open Sample in
example : bob2.mergeConcurrentOperation H o3 = (bob3, .ok true) ∧ ¬ Knows bob2 (H o3) ∧ Knows bob3 (H o3) := by
  simp only [knows_of]
  refine ⟨?_, by decide +kernel, by decide +kernel⟩
  decide +kernel

/-- C11: in every reachable state the past of every known operation is known. -/
theorem C11_past_known {H : SOp → Nat} (hH : Function.Injective H) {c : Cgka} (hr : Reach H c) {p x : Nat}
    (hb : Before c p x) : Knows c p ∧ Knows c x := by
  obtain ⟨hg, _⟩ := reach_inv hH hr
  rw [before_iff hg] at hb
  rw [knows_iff, knows_iff]
  obtain ⟨q, hq, _⟩ := TransGen.head'_iff.1 hb
  obtain ⟨q', _, hq'⟩ := TransGen.tail'_iff.1 hb
  exact ⟨(hg.known_pred hq).1, (hg.known_pred hq').2⟩

open Sample in
example : Reach H aliceMerged ∧ Before aliceMerged 1 6 := by
  refine ⟨aliceMerged_reach, .more (x := 3) (.more (x := 2) (.direct ?_) ?_) ?_⟩
  · exact ⟨o2, by decide +kernel, by decide +kernel⟩
  · exact ⟨o3, by decide +kernel, by decide +kernel⟩
  · exact ⟨o6, by decide +kernel, by decide +kernel⟩

/-! ## Heads (C13) -/

/-- C13: the heads are exactly the known operations that no known operation names. -/
theorem C13_heads_exact {H : SOp → Nat} (hH : Function.Injective H) {c : Cgka} (hr : Reach H c) :
    c.graph.heads.Nodup ∧ c.graph.heads ≠ [] ∧
    ∀ x, x ∈ c.graph.heads ↔ Knows c x ∧ ∀ y, ¬ Names c x y := by
  obtain ⟨hg, _⟩ := reach_inv hH hr
  refine ⟨hg.headsN, hg.ne, ?_⟩
  intro x
  rw [hg.heads, knows_iff]
  simp only [names_iff hg]

/-- C13: everything known is a head or in the past of a head. -/
theorem C13_heads_cover {H : SOp → Nat} (hH : Function.Injective H) {c : Cgka} (hr : Reach H c) (x : Nat) :
    Knows c x ↔ Past c c.graph.heads x := by
  obtain ⟨hg, _⟩ := reach_inv hH hr
  unfold Past
  simp only [before_iff hg]
  rw [knows_iff, ← anc_iff, anc_all hg]

open Sample in
example : Reach H aliceMerged ∧ aliceMerged.graph.heads = [6, 7] := ⟨aliceMerged_reach, by decide +kernel⟩

/-! ## Replay order (C14) -/

/-- What a replay order of the past of `heads` must be. -/
structure ReplayOrder (H : SOp → Nat) (c : Cgka) (heads : List Nat) (epochs : List (List SOp)) : Prop where
  /-- nothing twice -/
  once : (epochs.flatten.map H).Nodup
  /-- exactly the past of the heads -/
  exactly : ∀ x, x ∈ epochs.flatten.map H ↔ Past c heads x
  /-- the recorded operations themselves -/
  genuine : ∀ o ∈ epochs.flatten, AMap.get c.graph.ops (H o) = some o
  /-- nothing before its own past -/
  causal : epochs.flatten.Pairwise (fun a b => ¬ Before c (H b) (H a))
  /-- no empty group -/
  nonempty : ∀ e ∈ epochs, e ≠ []
  /-- a group is complete before the next one starts: everything in it is in the past of everything later -/
  separated : epochs.Pairwise (fun e f => ∀ a ∈ e, ∀ b ∈ f, Before c (H a) (H b))

/-- C14, for groups whose operations all descend from one first operation: sorting succeeds for every set of known
operations and yields a replay order. Missing: graphs with several operations without predecessors, for which the claim
is false (`C14_fails_for_two_roots`). -/
theorem C14_replay_order_partial {H : SOp → Nat} (hH : Function.Injective H) {c : Cgka} (hr : Reach H c)
    (h1 : OneRoot c) {heads : List Nat} (hne : heads ≠ []) (hn : heads.Nodup) (hk : ∀ x ∈ heads, Knows c x) :
    ∃ epochs, c.graph.topsortForHeads heads = .ok epochs ∧ ReplayOrder H c heads epochs := by
  obtain ⟨hg, _⟩ := reach_inv hH hr
  obtain ⟨l, es, hl, hts, hlm, hes, hs⟩ := order_spec hg ((oneRoot_iff hg).1 h1) hn
    (fun x hx => (knows_iff _ _).1 (hk x hx)) hne
  have hflat : es.flatten.map H = l.flatten := by rw [← hlm, List.map_flatten]
  refine ⟨es, hts, ?_, ?_, hes, ?_, ?_, ?_⟩
  · rw [hflat]; exact hs.nodup
  · intro x
    rw [hflat, hs.mem, anc_iff]
    unfold Past
    simp only [before_iff hg]
  · have := hs.order
    rw [← hflat, List.pairwise_map] at this
    simpa only [before_iff hg] using this
  · intro e he hc
    exact hs.ne (e.map H) (by rw [← hlm]; exact List.mem_map_of_mem he) (by simp [hc])
  · have := hs.sep
    rw [← hlm, List.pairwise_map] at this
    refine this.imp ?_
    intro e f hef a ha b hb
    rw [before_iff hg]
    exact hef _ (List.mem_map_of_mem ha) _ (List.mem_map_of_mem hb)

-- A fork with an add and an update; the replay order keeps the concurrent operations in one group.
open Sample in
example : Reach H aliceMerged ∧ OneRoot aliceMerged ∧ (∀ x ∈ [7, 6], Knows aliceMerged x) ∧
    aliceMerged.graph.topsortForHeads [7, 6] = .ok [[o0], [o1], [o2], [o3], [o6, o7]] := by
  refine ⟨aliceMerged_reach, aliceMerged_oneRoot, ?_, by decide +kernel⟩
  simp only [knows_of]
  decide +kernel

/-- C14 is false when an operation without predecessors has been accepted from the network: a head that nothing
descends from and that has no past itself is left out of the replay order. -/
theorem C14_fails_for_two_roots : ∃ (H : SOp → Nat) (c : Cgka), Function.Injective H ∧ ReachOk H c ∧
    8 ∈ c.graph.heads ∧ Knows c 8 ∧
    ∃ epochs, c.graph.topsortGraph = .ok epochs ∧ 8 ∉ epochs.flatten.map H ∧
      ¬ ReplayOrder H c c.graph.heads epochs := by
  have hm : 8 ∈ Sample.aliceTwoRoots.graph.heads := by decide +kernel
  have hn : 8 ∉ ([[Sample.o0], [Sample.o1], [Sample.o2], [Sample.o3]] : List (List SOp)).flatten.map Sample.H := by
    decide +kernel
  refine ⟨Sample.H, Sample.aliceTwoRoots, Sample.H_inj, Sample.aliceTwoRoots_ok, hm,
    by rw [Sample.knows_of]; decide +kernel, [[Sample.o0], [Sample.o1], [Sample.o2], [Sample.o3]], by decide +kernel, hn, ?_⟩
  intro h
  exact hn ((h.exactly 8).2 (Or.inl hm))

/-! ## Convergence (C12) -/

theorem reachOk_reach {H : SOp → Nat} {c : Cgka} (h : ReachOk H c) : Reach H c := by
  induction h with
  | new h1 h2 => exact .new h1 h2
  | owner me sks _ ih => exact .owner me sks ih
  | @call c cmd _ hc ih =>
    refine .call ih ?_
    have key : ∀ sign, GoodSigner sign → HonestSigner sign := by
      intro sign hs p o ho
      obtain ⟨o', h1, h2⟩ := hs p
      rw [ho] at h1; cases h1
      exact h2
    cases cmd with
    | add => exact key _ hc
    | remove => exact key _ hc
    | update => exact key _ hc
    | encrypt => exact key _ hc
    | decrypt => trivial
    | receive => trivial

theorem sameOps_of_knows {H : SOp → Nat} (hH : Function.Injective H) {a b : Cgka} (ha : GInv H a.graph)
    (hb : GInv H b.graph) (hk : ∀ x, Knows a x ↔ Knows b x) : SameOps a.graph b.graph := by
  intro x
  have := hk x
  unfold Knows at this
  cases hx : AMap.get a.graph.ops x with
  | none =>
    cases hy : AMap.get b.graph.ops x with
    | none => rfl
    | some o =>
      obtain ⟨o', ho'⟩ := this.2 ⟨o, hy⟩
      rw [hx] at ho'; simp at ho'
  | some o =>
    obtain ⟨o', ho'⟩ := this.1 ⟨o, hx⟩
    rw [ho']
    have h1 := ha.hash x o hx
    have h2 := hb.hash x o' ho'
    rw [hH (h1.trans h2.symm)]

/-- C12: two replicas that know the same operations hold the same operation graph and the same heads, whatever the
orders of delivery were. -/
theorem C12_same_graph {H : SOp → Nat} (hH : Function.Injective H) {a b : Cgka} (ha : Reach H a) (hb : Reach H b)
    (hk : ∀ x, Knows a x ↔ Knows b x) :
    (∀ x, AMap.get a.graph.ops x = AMap.get b.graph.ops x) ∧ (∀ p x, Names a p x ↔ Names b p x) ∧
    (∀ x, x ∈ a.graph.heads ↔ x ∈ b.graph.heads) := by
  obtain ⟨ga, _⟩ := reach_inv hH ha
  obtain ⟨gb, _⟩ := reach_inv hH hb
  have hs := sameOps_of_knows hH ga gb hk
  refine ⟨hs, ?_, hs.heads ga gb⟩
  intro p x
  rw [names_iff ga, names_iff gb, hs.pred ga gb]

/-- C12: two replicas that know the same operations, all descending from one first operation, have the same key tree
once each has replayed (which it does before every local change): if one replays, so does the other, to the same
tree. Signing must not have failed in between (see `C61_failed_signature_diverges`). -/
theorem C12_convergence {H : SOp → Nat} (hH : Function.Injective H) {a b : Cgka} (ha : ReachOk H a) (hb : ReachOk H b)
    (h1 : OneRoot a) (hk : ∀ x, Knows a x ↔ Knows b x) {a' : Cgka} (hra : a.replayIfNeeded H = .ok a') :
    ∃ b', b.replayIfNeeded H = .ok b' ∧ b'.tree = a'.tree := by
  have sa := reachOk_inv hH ha
  have sb := reachOk_inv hH hb
  have hs := sameOps_of_knows hH sa.graph sb.graph hk
  have g1 := (oneRoot_iff sa.graph).1 h1
  -- same initial operation
  have hroot : a.initAddOp = b.initAddOp := by
    have pa : ∀ p, ¬ a.graph.Pred p (H a.initAddOp) := by
      intro p hp
      rw [sa.graph.predOf] at hp
      obtain ⟨o, ho, hp⟩ := hp
      rw [sa.root.1] at ho
      cases ho
      rw [sa.root.2.preds] at hp
      cases hp
    have pb : ∀ p, ¬ a.graph.Pred p (H b.initAddOp) := by
      intro p hp
      rw [hs.pred sa.graph sb.graph, sb.graph.predOf] at hp
      obtain ⟨o, ho, hp⟩ := hp
      rw [sb.root.1] at ho
      cases ho
      rw [sb.root.2.preds] at hp
      cases hp
    exact hH (g1 _ _ (by rw [sa.root.1]; simp) (by rw [hs, sb.root.1]; simp) pa pb)
  have horig : a.originalMember = b.originalMember := by
    have h2 := sa.root.2
    rw [hroot] at h2
    exact Prod.ext (h2.unique sb.root.2).1 (h2.unique sb.root.2).2
  have hi : b.initAddOp.payload.preds = [] := sb.root.2.preds
  have hset := (settle sa hra).1
  have hlen := (headsPerm hs sa.graph sb.graph).length_eq
  by_cases hl : b.graph.heads.length = 1
  · have hnr : b.replayIfNeeded H = .ok b := by
      unfold Cgka.replayIfNeeded
      rw [if_neg]
      rw [shouldReplay_eq sb]
      simpa using hl
    refine ⟨b, hnr, ?_⟩
    have hsb := sb.settled hl
    rw [horig, hroot] at hset
    exact (hset.unique hH hsb sa.graph sb.graph hs g1 hi).symm
  · have hla : a.graph.heads.length ≠ 1 := by omega
    unfold Cgka.replayIfNeeded at hra
    rw [if_pos ((shouldReplay_eq sa).2 hla)] at hra
    obtain ⟨⟨r, hr1, hr2⟩, _⟩ := replay_rebuilt hra
    rw [horig, hroot, rebuilt_congr hs sa.graph sb.graph g1] at hr1
    obtain ⟨b', hb1, hb2⟩ := replay_of_rebuilt sb.graph (hs.oneRoot sa.graph sb.graph g1) sb.root.1 hi hl hr1
    refine ⟨b', ?_, by rw [hb2, hr2]⟩
    unfold Cgka.replayIfNeeded
    rw [if_pos ((shouldReplay_eq sb).2 hl)]
    exact hb1

-- Alice and Bob after exchanging a concurrent update and a concurrent add, in opposite orders.
open Sample in
example : ReachOk H aliceMerged ∧ ReachOk H bobMerged ∧ OneRoot aliceMerged ∧ (∀ x, Knows aliceMerged x ↔ Knows bobMerged x) ∧
    aliceMerged.tree ≠ bobMerged.tree ∧ (∃ a, aliceMerged.replayIfNeeded H = .ok a) :=
  ⟨aliceMerged_ok, bobMerged_ok, aliceMerged_oneRoot, same_of (by decide +kernel) (by decide +kernel), by decide +kernel,
    ok_of (by decide +kernel)⟩

theorem tidy_iff {H : SOp → Nat} {c : Cgka} (h : GInv H c.graph) : Tidy c ↔ TidyG c.graph := by
  unfold Tidy TidyG
  simp only [names_iff h, before_iff h]

/-- C62, when no operation names a redundant predecessor and there is one first operation: the tree kept by applying
operations one by one is the tree a rebuild from nothing produces. Missing: redundant predecessors, which the library
itself produces after merging a fork, and for which the claim is false (`C62_fails_after_fork_merge`). -/
theorem C62_incremental_is_replay_partial {H : SOp → Nat} (hH : Function.Injective H) {a a' : Cgka} (ha : ReachOk H a)
    (h1 : OneRoot a) (h2 : Tidy a) (hra : a.replayIfNeeded H = .ok a') : ReplaysTo H a a'.tree := by
  have sa := reachOk_inv hH ha
  have hset := (settle sa hra).1
  rw [← rebuilt_replays]
  exact hset.rebuilt sa.graph ((oneRoot_iff sa.graph).1 h1) ((tidy_iff sa.graph).1 h2) sa.root.1 sa.root.2.preds

open Sample in
example : ReachOk H aliceMerged ∧ OneRoot aliceMerged ∧ Tidy aliceMerged ∧ (∃ a, aliceMerged.replayIfNeeded H = .ok a) :=
  ⟨aliceMerged_ok, aliceMerged_oneRoot, aliceMerged_tidy, ok_of (by decide +kernel)⟩

/-- C62 is false after the merge of a fork. Alice receives Carol's add and update on a fork, merges the fork and updates;
their update names an operation in the past of another one it names. Carol, who only ever called the library and received
genuine operations, holds a current group secret, but cannot rederive it from the operations. -/
theorem C62_fails_after_fork_merge : ∃ (H : SOp → Nat) (c : Cgka) (x : Nat), Function.Injective H ∧ ReachOk H c ∧
    c.graph.heads = [x] ∧ c.hasPcsKey = .ok true ∧ (∃ s k, c.pcsKeyFromTreeRoot = .ok (s, k)) ∧
    c.derivePcsKeyForOp H x = .error .encryptedSecretNotFound ∧
    (∃ e, c.replayOpsGraph H = .error e) ∧
    -- the update that Carol received is what the library made for Alice
    (∃ k, ((ForkSample.aliceMerged H).update H (Sample.sign 6) Sample.gen 20 14).2 = .ok (k, ForkSample.p6)) ∧
    Knows c (H ForkSample.p6) ∧ ¬ Tidy c := by
  refine ⟨ForkSample.H, ForkSample.carol6 ForkSample.H, 6, ForkSample.H_inj, ForkSample.carol6_ok, by decide +kernel,
    by decide +kernel, ?_, by decide +kernel, Sample.error_of (by decide +kernel), ⟨1021, by decide +kernel⟩,
    by rw [Sample.knows_of]; decide +kernel, ?_⟩
  · obtain ⟨r, h⟩ := Sample.ok_of (r := (ForkSample.carol6 ForkSample.H).pcsKeyFromTreeRoot) (by decide +kernel)
    exact ⟨r.1, r.2, h⟩
  · intro h
    refine h 6 3 5 ⟨ForkSample.p6, by decide +kernel, by decide +kernel⟩ ⟨ForkSample.p6, by decide +kernel, by decide +kernel⟩ ?_
    refine .more (.direct (x := 4) ⟨ForkSample.p4, by decide +kernel, by decide +kernel⟩) ⟨ForkSample.p5, by decide +kernel, by decide +kernel⟩

/-! ## Replay succeeds (C15) -/

/-- C15, when nothing is concurrent at the moment: the group can be rebuilt from its operations. Missing: states with
several heads, for which the claim is false (`C15_fails_for_concurrent_removes`). -/
theorem C15_single_head_replays_partial {H : SOp → Nat} (hH : Function.Injective H) {c : Cgka} (hr : ReachOk H c)
    (h1 : OneRoot c) (h2 : Tidy c) (hl : c.graph.heads.length = 1) : ReplaysTo H c c.tree := by
  have hs := reachOk_inv hH hr
  refine C62_incremental_is_replay_partial hH hr h1 h2 ?_
  unfold Cgka.replayIfNeeded
  rw [if_neg]
  rw [shouldReplay_eq hs]
  simpa using hl

open Sample in
example : ReachOk H alice7 ∧ OneRoot alice7 ∧ Tidy alice7 ∧ alice7.graph.heads.length = 1 :=
  ⟨alice7_ok, oneRoot_of 0 (by decide +kernel), tidy_of id (by decide +kernel) (by decide +kernel), by decide +kernel⟩

theorem replay_stuck {H : SOp → Nat} {c : Cgka} {e : CgkaError} (h : c.replayIfNeeded H = .error e) :
    (∀ sign g n sk, c.update H sign g n sk = (c, .error e)) ∧
    (∀ sign id pk, c.tree.containsId id = false → c.add H sign id pk = (c, .error e)) ∧
    (∀ sign id, c.tree.containsId id = true → c.remove H sign id = (c, .error e)) ∧
    (∀ op, c.graph.containsOpHash (H op) = false → c.graph.containsPredecessors op.payload.preds = true →
      c.graph.headsContainedIn op.payload.preds = true → c.mergeConcurrentOperation H op = (c, .error e)) := by
  refine ⟨?_, ?_, ?_, ?_⟩
  · intro sign g n sk; simp [Cgka.update, h]
  · intro sign id pk hc; simp [Cgka.add, h, hc]
  · intro sign id hc; simp [Cgka.remove, h, hc]
  · intro op h1 h2 h3; simp [Cgka.mergeConcurrentOperation, h, h1, h2, h3]

/-- C15 is false: two members removing the same third member concurrently, with genuine operations only, leave a group
that cannot be rebuilt, in which every update and removal fails and changes nothing, and which takes no further operation
built on top of both. -/
theorem C15_fails_for_concurrent_removes : ∃ (H : SOp → Nat) (c : Cgka), Function.Injective H ∧ ReachOk H c ∧ OneRoot c ∧
    Tidy c ∧ c.graph.heads = [5, 4] ∧
    -- both removals are what the library produced, for Alice and for Bob
    (Sample.alice3.remove H (Sample.sign 4) 3).2 = .ok (some Sample.o4) ∧
    (Sample.bob3.remove H (Sample.sign 5) 3).2 = .ok (some Sample.o5) ∧
    c = ((Sample.alice3.remove H (Sample.sign 4) 3).1.mergeConcurrentOperation H Sample.o5).1 ∧
    (∀ t, ¬ ReplaysTo H c t) ∧
    (∀ sign g n sk, c.update H sign g n sk = (c, .error .identifierNotFound)) ∧
    (∀ sign id, c.tree.containsId id = true → c.remove H sign id = (c, .error .identifierNotFound)) ∧
    (∀ op, ¬ Knows c (H op) → (∀ x, x ∈ op.payload.preds ↔ x = 4 ∨ x = 5) →
      c.mergeConcurrentOperation H op = (c, .error .identifierNotFound)) := by
  have hrep : Sample.aliceConflict.replayIfNeeded Sample.H = .error .identifierNotFound := by decide +kernel
  have hstuck := replay_stuck hrep
  have hheads : Sample.aliceConflict.graph.heads = [5, 4] := by decide +kernel
  refine ⟨Sample.H, Sample.aliceConflict, Sample.H_inj, Sample.aliceConflict_ok, Sample.oneRoot_of 0 (by decide +kernel),
    Sample.tidy_of id (by decide +kernel) (by decide +kernel), hheads, by decide +kernel, by decide +kernel, rfl,
    ?_, hstuck.1, hstuck.2.2.1, ?_⟩
  · rintro t ⟨es, st, r, h1, h2, h3, _⟩
    have ht : Sample.aliceConflict.graph.topsortGraph =
        .ok [[Sample.o0], [Sample.o1], [Sample.o2], [Sample.o3], [Sample.o4, Sample.o5]] := by decide +kernel
    rw [ht] at h1
    cases h1
    have hs : (Sample.aliceConflict.rebuildStart Sample.H >>= fun s =>
        s.applyEpochs Sample.H [[Sample.o0], [Sample.o1], [Sample.o2], [Sample.o3], [Sample.o4, Sample.o5]]) = .error .identifierNotFound := by
      decide +kernel
    rw [h2] at hs
    simp only [bind, Except.bind, h3] at hs
    cases hs
  · intro op hk hp
    refine hstuck.2.2.2 op ?_ ?_ ?_
    · rw [Sample.knows_of] at hk
      simpa [Graph.containsOpHash] using hk
    · rw [containsPredecessors_iff]
      intro p hpp
      rcases (hp p).1 hpp with rfl | rfl <;> decide +kernel
    · unfold Graph.headsContainedIn
      rw [hheads]
      simp [(hp 5).2 (Or.inr rfl), (hp 4).2 (Or.inl rfl)]

/-! ## When a group secret is current (C16) -/

/-- C16: asking for a usable current secret never fails, and the answer is yes only if there is exactly one head, that
head is an update, everything known is in its past, and the root has a key. -/
theorem C16_current_secret {H : SOp → Nat} (hH : Function.Injective H) {c : Cgka} (hr : ReachOk H c) :
    ∃ b, c.hasPcsKey = .ok b ∧
      (b = true → c.tree.hasRootKey = .ok true ∧ c.graph.addHeads.length < 2 ∧
        ∃ (h : Nat) (id : MemberId) (path : PathChange) (preds : List Nat) (issuer signature : Nat),
          c.graph.heads = [h] ∧ AMap.get c.graph.ops h = some ⟨.update id path preds, issuer, signature⟩ ∧
          ∀ x, Knows c x ↔ x = h ∨ Before c x h) := by
  have hs := reachOk_inv hH hr
  obtain ⟨b, hb⟩ := (reach_fit (reachOk_reach hr)).root
  refine ⟨b && c.graph.hasSingleHead && decide (c.graph.addHeads.length < 2), ?_, ?_⟩
  · unfold Cgka.hasPcsKey
    simp [hb, bind, Except.bind, pure, Except.pure]
  · intro ht
    simp only [Bool.and_eq_true, decide_eq_true_eq, Graph.hasSingleHead] at ht
    obtain ⟨⟨hb1, hl⟩, hadd⟩ := ht
    subst hb1
    refine ⟨hb, hadd, ?_⟩
    obtain ⟨h, hh⟩ := List.length_eq_one_iff.1 hl
    have hm : h ∈ c.graph.heads := by rw [hh]; simp
    have hk := ((hs.graph.heads h).1 hm).1
    cases ho : AMap.get c.graph.ops h with
    | none => exact absurd ho hk
    | some op =>
      have hstr : op.payload.isStructural = false := by
        by_contra hc
        have := (hs.settled hl).structural hs.graph hh ho (by simpa using hc)
        rw [hb] at this
        simp at this
      obtain ⟨pl, i, sg⟩ := op
      cases pl with
      | add => simp [Payload.isStructural] at hstr
      | remove => simp [Payload.isStructural] at hstr
      | update id path preds =>
        refine ⟨h, id, path, preds, i, sg, hh, ho, ?_⟩
        intro x
        rw [C13_heads_cover hH (reachOk_reach hr)]
        unfold Past
        rw [hh]
        simp

open Sample in
example : ReachOk H alice3 ∧ alice3.hasPcsKey = .ok true := ⟨alice3_ok, by decide +kernel⟩

/-- C16: right after an add or a remove has been merged there is no usable current secret. -/
theorem C16_not_after_membership_change {H : SOp → Nat} (hH : Function.Injective H) {c c' : Cgka} (hr : ReachOk H c)
    {op : SOp} (hs : op.payload.isStructural = true) (hm : c.mergeConcurrentOperation H op = (c', .ok true)) :
    c'.hasPcsKey = .ok false := by
  have hr' : ReachOk H c' := by
    have : ReachOk H (step H c (.receive op)) := .call hr trivial
    simpa only [step, hm] using this
  obtain ⟨b, hb, hall⟩ := C16_current_secret hH hr'
  cases b with
  | false => exact hb
  | true =>
    exfalso
    obtain ⟨_, _, h, id, path, preds, _, _, hh, ho, _⟩ := hall rfl
    have hc := receive_cases H c op
    rw [hm] at hc
    rcases hc with ⟨_, h2⟩ | ⟨h1, _, h3⟩
    · simp at h2
    · have h1 : c'.graph = c.graph.addOp H op op.payload.preds := h1
      have m : H op ∈ c'.graph.heads := by
        rw [h1]; simp [Graph.addOp, Graph.addOpAndUpdateHeads, mem_sinsert]
      rw [hh, List.mem_singleton] at m
      have : AMap.get c'.graph.ops (H op) = some op := by
        rw [h1]
        show AMap.get (AMap.insert c.graph.ops (H op) op) _ = _
        simp
      rw [m, ho] at this
      cases this
      simp [Payload.isStructural] at hs

open Sample in
example : ReachOk H bob2 ∧ ReachOk H alice3 ∧ o6.payload.isStructural = true ∧
    alice3.mergeConcurrentOperation H o6 = (step H alice3 (.receive o6), .ok true) :=
  ⟨bob2_ok, alice3_ok, rfl, by decide +kernel⟩

/-- C16: right after merging an operation that is concurrent with something known there is no usable current
secret. -/
theorem C16_not_after_concurrency {H : SOp → Nat} (hH : Function.Injective H) {c c' : Cgka} (hr : ReachOk H c)
    {op : SOp} {x : Nat} (hm : c.mergeConcurrentOperation H op = (c', .ok true)) (hx : Knows c x)
    (hcon : ¬ Before c' x (H op)) : c'.hasPcsKey = .ok false := by
  have hr' : ReachOk H c' := by
    have : ReachOk H (step H c (.receive op)) := .call hr trivial
    simpa only [step, hm] using this
  obtain ⟨b, hb, hall⟩ := C16_current_secret hH hr'
  cases b with
  | false => exact hb
  | true =>
    exfalso
    obtain ⟨_, _, h, id, path, preds, _, _, hh, ho, hcov⟩ := hall rfl
    have hc := receive_cases H c op
    rw [hm] at hc
    rcases hc with ⟨_, h2⟩ | ⟨h1, _, h3⟩
    · simp at h2
    · have h1 : c'.graph = c.graph.addOp H op op.payload.preds := h1
      have m : H op ∈ c'.graph.heads := by
        rw [h1]; simp [Graph.addOp, Graph.addOpAndUpdateHeads, mem_sinsert]
      rw [hh, List.mem_singleton] at m
      have hx' : Knows c' x := by
        rw [knows_iff] at hx ⊢
        rw [h1]
        show AMap.get (AMap.insert c.graph.ops (H op) op) _ ≠ none
        rw [AMap.get_insert]
        split
        · simp
        · exact hx
      rcases (hcov x).1 hx' with he | he
      · rw [knows_iff, he, ← m] at hx
        exact hx h3
      · rw [← m] at he
        exact hcon he

open Sample in
example : ReachOk H bob6 ∧ bob6.mergeConcurrentOperation H o7 = (bobMerged, .ok true) ∧ Knows bob6 6 ∧
    ¬ Before bobMerged 6 (H o7) := by
  refine ⟨bob6_ok, ?_, by rw [knows_of]; decide +kernel, ?_⟩
  · decide +kernel
  · have h7 : H o7 = 7 := by decide +kernel
    rw [h7]
    exact not_before_of (fun x => decide (x = 7) || decide (x ≤ 3)) (by decide +kernel) (by decide +kernel) (by decide +kernel)

/-! ## Old content (C17) -/

theorem later_keep {H : SOp → Nat} {c c' : Cgka} (h : Later H c c') (hc : Coh c) :
    Coh c' ∧ ∀ x, AMap.get c.pcsKeys x ≠ none → AMap.get c'.pcsKeys x ≠ none := by
  induction h with
  | refl => exact ⟨hc, fun _ h => h⟩
  | owner me sks _ ih => exact ⟨⟨ih.1.val, ih.1.ops⟩, ih.2⟩
  | call _ hcmd ih =>
    obtain ⟨_, h2⟩ := step_frame (H := H) _ _ hcmd
    exact ⟨h2.coh ih.1, fun x hx => h2.keep x (ih.2 x hx)⟩

theorem decrypt_of_key {H : SOp → Nat} {c : Cgka} (hc : Coh c) {e : EncContent}
    (hk : AMap.get c.pcsKeys e.pcsKeyHash ≠ none) :
    c.decryptionKeyFor H e = (c, .ok ⟨e.pcsKeyHash.of, e.predRefs, e.contentRef⟩) := by
  cases hg : AMap.get c.pcsKeys e.pcsKeyHash with
  | none => exact absurd hg hk
  | some k =>
    have hv := hc.val _ _ hg
    have hcon : AMap.contains c.pcsKeys e.pcsKeyHash = true := by
      rw [AMap.contains_iff, AMap.mem_keys_iff]; exact hk
    unfold Cgka.decryptionKeyFor Cgka.pcsKeyFromHashes
    simp only [hg, hcon, if_true, deriveApplicationSecret]
    rw [hv]

/-- C17: once the key for some content has been found, the same replica finds the same key after any further calls, adds,
removes, updates and deliveries. -/
theorem C17_old_content {H : SOp → Nat} (hH : Function.Injective H) {c c1 c2 : Cgka} (hr : Reach H c)
    {k r ps o p : Nat} {e : EncContent} (he : e = (deriveApplicationSecret k r ps o).encrypt p) {key : AppKey}
    (hd : c.decryptionKeyFor H e = (c1, .ok key)) (hopen : e.openWith key = some p) (hl : Later H c1 c2) :
    (c2.decryptionKeyFor H e).2 = .ok key ∧ (c2.decryptionKeyFor H e).1 = c2 := by
  obtain ⟨_, hc⟩ := reach_inv hH hr
  have hkey : key = ⟨k, ps, r⟩ := by
    subst he
    unfold EncContent.openWith at hopen
    split at hopen
    · assumption
    · simp at hopen
  have hc1 : Coh c1 := by
    have := (Ext.decrypt H c e).coh hc
    rwa [hd] at this
  have hh : e.pcsKeyHash = ⟨k⟩ := by rw [he]; rfl
  have hk1 : AMap.get c1.pcsKeys e.pcsKeyHash ≠ none := by
    unfold Cgka.decryptionKeyFor at hd
    split at hd
    · simp at hd
    · rename_i c0 k0 h0
      simp only [Prod.mk.injEq, Except.ok.injEq] at hd
      obtain ⟨h1, h2⟩ := hd
      have hk0 : k0 = k := by
        rw [hkey] at h2
        simp only [deriveApplicationSecret, AppKey.mk.injEq] at h2
        exact h2.1
      subst hk0
      rw [← h1]
      split
      · rename_i hcon
        rw [AMap.contains_iff, AMap.mem_keys_iff] at hcon
        exact hcon
      · rw [hh, insertPcsKey_get]; simp
  obtain ⟨hc2, hkeep⟩ := later_keep hl hc1
  rw [decrypt_of_key hc2 (hkeep _ hk1), hkey, hh]
  subst he
  exact ⟨rfl, rfl⟩

-- Bob reads content that Alice encrypted after their first update.
open Sample in
example : Reach H bob3 ∧ (deriveApplicationSecret 1001 7 8 3).encrypt 99 = ⟨⟨1001, 8, 7⟩, 99, ⟨1001⟩, 3, 7, 8⟩ ∧
    (bob3.decryptionKeyFor H ⟨⟨1001, 8, 7⟩, 99, ⟨1001⟩, 3, 7, 8⟩).2 = .ok ⟨1001, 8, 7⟩ :=
  ⟨reachOk_reach bob3_ok, rfl, by decide +kernel⟩

/-- C17: content one has encrypted oneself stays decryptable. -/
theorem C17_own_content {H : SOp → Nat} (hH : Function.Injective H) {c c1 c2 : Cgka} (hr : Reach H c)
    {sign : Payload → Res SOp} (hs : HonestSigner sign) {g : BeeKem.Gen} {n r ps p : Nat} {s : AppSecret} {op : Option SOp}
    (he : c.newAppSecretFor H sign g n r ps = (c1, .ok (s, op))) (hl : Later H c1 c2) :
    (c2.decryptionKeyFor H (s.encrypt p)).2 = .ok s.key ∧ (s.encrypt p).openWith s.key = some p := by
  obtain ⟨_, hc⟩ := reach_inv hH hr
  have hc1 : Coh c1 := by
    have := (GStep.encrypt (H := H) hs g n c r ps).2.coh hc
    rwa [he] at this
  have hfin : ∀ (c : Cgka) (k : Sk) (o : Option SOp), Coh c → c.finishAppSecret k o r ps = (c1, .ok (s, op)) →
      c1 = c ∧ AMap.get c.pcsKeys ⟨k⟩ ≠ none ∧ s.pcsKeyHash = ⟨k⟩ ∧ s.key = ⟨k, ps, r⟩ ∧ s.contentRef = r ∧ s.predRefs = ps := by
    intro c k o hcoh hf
    unfold Cgka.finishAppSecret at hf
    split at hf
    · simp at hf
    · rename_i x hx
      simp only [Prod.mk.injEq, Except.ok.injEq] at hf
      obtain ⟨h1, h2, _⟩ := hf
      refine ⟨h1.symm, ?_, ?_⟩
      · rw [← hcoh.ops]
        rw [hx]; simp
      · rw [← h2]; exact ⟨rfl, rfl, rfl, rfl⟩
  have main : ∃ k, AMap.get c1.pcsKeys ⟨k⟩ ≠ none ∧ s.pcsKeyHash = ⟨k⟩ ∧ s.key = ⟨k, ps, r⟩ ∧ s.contentRef = r ∧ s.predRefs = ps := by
    unfold Cgka.newAppSecretFor at he
    split at he
    · simp at he
    · split at he
      · simp at he
      · rename_i c0 k0 op0 hu
        have hcu : Coh c0 := by
          have := (GStep.update (H := H) hs g (n + 1) c (g n)).2.coh hc
          rwa [hu] at this
        obtain ⟨rfl, h⟩ := hfin _ _ _ ((Ext.insertPcsKey c0 k0 (H op0)).coh hcu) he
        exact ⟨_, h⟩
    · split at he
      · simp at he
      · rename_i c0 k0 h0
        have hcu := (Ext.treeRoot h0).coh hc
        split at he
        · obtain ⟨rfl, h⟩ := hfin _ _ _ hcu he
          exact ⟨_, h⟩
        · split at he
          · obtain ⟨rfl, h⟩ := hfin _ _ _ hcu he
            exact ⟨_, h⟩
          · obtain ⟨rfl, h⟩ := hfin _ _ _ ((Ext.insertPcsKey c0 k0 _).coh hcu) he
            exact ⟨_, h⟩
  obtain ⟨k, hk, h1, h2, h3, h4⟩ := main
  obtain ⟨hc2, hkeep⟩ := later_keep hl hc1
  refine ⟨?_, by simp [EncContent.openWith, AppSecret.encrypt]⟩
  rw [decrypt_of_key hc2 (e := s.encrypt p) (by rw [show (s.encrypt p).pcsKeyHash = ⟨k⟩ from h1]; exact hkeep _ hk)]
  simp only [AppSecret.encrypt, h1, h2, h3, h4]

open Sample in
example : Reach H alice3 ∧ HonestSigner noSign ∧
    (alice3.newAppSecretFor H noSign gen 50 7 8).2 = .ok (⟨⟨1001, 8, 7⟩, ⟨1001⟩, 3, 7, 8⟩, none) :=
  ⟨reachOk_reach alice3_ok, noSign_honest, by decide +kernel⟩

/-! ## Content keys (C18) -/

open Verif.ContentKey in
/-- Two inputs do not collide under a hash function. -/
def NoCollision (f : Bytes → Bytes) (x y : Bytes) : Prop := f x = f y → x = y

open Verif.ContentKey in
/-- C18: the key of some content determines the group secret, the content reference and the list of predecessors,
unless BLAKE3 collides on the very inputs involved. -/
theorem C18_key_binds {Cr : Type} {hash kdf : Bytes → Bytes} {ser : Cr → Bytes} (hlen : ∀ x, (hash x).length = 32)
    (hser : SelfDelimiting ser) {s s' : Bytes} (hs : s.length = 32) (hs' : s'.length = 32) {r r' : Cr} {ps ps' : List Cr}
    (hps : ps.length < 2 ^ 64) (hps' : ps'.length < 2 ^ 64)
    (n1 : NoCollision kdf (material hash s (hash (serVec ser ps)) (ser r)) (material hash s' (hash (serVec ser ps')) (ser r')))
    (n2 : NoCollision hash (ser r) (ser r')) (n3 : NoCollision hash (serVec ser ps) (serVec ser ps'))
    (h : keyFor hash kdf ser s r ps = keyFor hash kdf ser s' r' ps') : s = s' ∧ r = r' ∧ ps = ps' := by
  obtain ⟨h1, h2, h3⟩ := material_inj hlen (by rw [hs, hs']) (by rw [hlen, hlen]) (n1 h)
  have h4 := n2 h3
  refine ⟨h1, ?_, serVec_inj hser hps hps' (n3 h2)⟩
  exact (hser r r' [] [] (by rw [h4])).1

-- Content references of a fixed length, as used in the code (32-byte digests; here one byte).
open Verif.ContentKey in
example : SelfDelimiting (fun b : UInt8 => [b]) ∧ (List.replicate 32 (1 : UInt8)).length = 32 ∧ ([1, 2] : List UInt8).length < 2 ^ 64 := by
  refine ⟨?_, rfl, by decide⟩
  intro r r' l l' h
  simpa using h

/-- C18: whoever holds the group secret recomputes the key from the public part of the ciphertext and recovers the
plaintext; with any other secret, reference or predecessor digest nothing opens. -/
theorem C18_round_trip (k r ps o p k' r' ps' o' : Nat) :
    let e := (deriveApplicationSecret k r ps o).encrypt p
    e.openWith (deriveApplicationSecret k e.contentRef e.predRefs e.pcsUpdateOpHash).key = some p ∧
    (e.openWith (deriveApplicationSecret k' r' ps' o').key = none ↔ ¬ (k' = k ∧ r' = r ∧ ps' = ps)) := by
  refine ⟨by simp [AppSecret.encrypt, deriveApplicationSecret, EncContent.openWith], ?_⟩
  have hkey : (deriveApplicationSecret k' r' ps' o').key = ((deriveApplicationSecret k r ps o).encrypt p).sealedBy ↔
      (k' = k ∧ r' = r ∧ ps' = ps) := by
    simp only [AppSecret.encrypt, deriveApplicationSecret, AppKey.mk.injEq]
    constructor
    · rintro ⟨h1, h2, h3⟩; exact ⟨h1, h3, h2⟩
    · rintro ⟨h1, h2, h3⟩; exact ⟨h1, h3, h2⟩
  unfold EncContent.openWith
  rw [← hkey]
  split <;> simp_all

/-! ## Fork and merge (C19) -/

theorem foldl_orInsert_get {K V : Type} [DecidableEq K] (l : List (K × V)) (m : AMap K V) (x : K) :
    (∀ v, AMap.get m x = some v → AMap.get (l.foldl (fun acc p => AMap.orInsert acc p.1 p.2) m) x = some v) ∧
    (AMap.get (l.foldl (fun acc p => AMap.orInsert acc p.1 p.2) m) x ≠ none ↔ AMap.get m x ≠ none ∨ AMap.get l x ≠ none) ∧
    (AMap.get m x = none → AMap.get (l.foldl (fun acc p => AMap.orInsert acc p.1 p.2) m) x = AMap.get l x) := by
  induction l generalizing m with
  | nil => simp
  | cons a l ih =>
    obtain ⟨i1, i2, i3⟩ := ih (AMap.orInsert m a.1 a.2)
    rw [List.foldl_cons]
    have hget : ∀ y, AMap.get (AMap.orInsert m a.1 a.2) y = if y = a.1 then some ((AMap.get m a.1).getD a.2) else AMap.get m y := by
      intro y
      rw [AMap.get_orInsert]
      by_cases hy : y = a.1
      · subst hy; cases AMap.get m a.1 <;> simp
      · simp [hy]
    refine ⟨?_, ?_, ?_⟩
    · intro v hv
      apply i1
      rw [hget]
      split
      · rename_i hx; rw [← hx, hv]; rfl
      · exact hv
    · rw [i2, hget, AMap.get_cons]
      by_cases hx : x = a.1
      · simp [hx]
      · simp [hx, Ne.symm hx]
    · intro hm
      by_cases hx : x = a.1
      · rw [AMap.get_cons]
        rw [i1 a.2 (by rw [hget, if_pos hx, ← hx, hm]; rfl)]
        simp [hx]
      · rw [i3 (by rw [hget, if_neg hx, hm]), AMap.get_cons]
        simp [Ne.symm hx]

/-- C19, what is kept: after merging a fork every operation, derived group secret and share key of either side is
there, and nothing else except secrets the replay derives. Missing: the heads after the merge, which can include
operations that are no longer heads (`C19_heads_wrong`). -/
theorem C19_merge_keeps_everything_partial {H : SOp → Nat} (hH : Function.Injective H) {c fork c' : Cgka}
    (hc : Reach H c) (hf : Reach H fork) (h : c.merge H fork = .ok c') :
    (∀ x o, AMap.get c'.graph.ops x = some o ↔ AMap.get c.graph.ops x = some o ∨ AMap.get fork.graph.ops x = some o) ∧
    (∀ x, AMap.get c.pcsKeys x ≠ none ∨ AMap.get fork.pcsKeys x ≠ none → AMap.get c'.pcsKeys x = some x.of) ∧
    (∀ x, AMap.get c.ownerSks x ≠ none ∨ AMap.get fork.ownerSks x ≠ none → AMap.get c'.ownerSks x ≠ none) := by
  obtain ⟨gc, kc⟩ := reach_inv hH hc
  obtain ⟨gf, kf⟩ := reach_inv hH hf
  unfold Cgka.merge at h
  simp only at h
  split at h
  · rename_i c2 hr
    cases h
    have hx := Ext.replay hr
    refine ⟨?_, ?_, ?_⟩
    · intro x o
      rw [hx.graph]
      show AMap.get (fork.graph.ops.foldl (fun acc p => AMap.orInsert acc p.1 p.2) c.graph.ops) x = _ ↔ _
      obtain ⟨f1, f2, f3⟩ := foldl_orInsert_get fork.graph.ops c.graph.ops x
      cases hcx : AMap.get c.graph.ops x with
      | none => rw [f3 hcx]; simp
      | some oc =>
        rw [f1 oc hcx]
        constructor
        · exact Or.inl
        · rintro (h1 | h1)
          · exact h1
          · rw [hH ((gc.hash x oc hcx).trans (gf.hash x o h1).symm)]
    · intro x hxk
      have hcoh := hx.coh (by
        refine ⟨?_, ?_⟩
        · intro y k hy
          obtain ⟨f1, f2, f3⟩ := foldl_orInsert_get fork.pcsKeys c.pcsKeys y
          change AMap.get (fork.pcsKeys.foldl (fun acc p => AMap.orInsert acc p.1 p.2) c.pcsKeys) y = _ at hy
          cases hcy : AMap.get c.pcsKeys y with
          | none => rw [f3 hcy] at hy; exact kf.val y k hy
          | some k' => rw [f1 k' hcy] at hy; cases hy; exact kc.val y _ hcy
        · intro y
          rw [extendMap_keys, kc.ops, kf.ops]
          exact (foldl_orInsert_get fork.pcsKeys c.pcsKeys y).2.1.symm)
      have hne := hx.keep x ((foldl_orInsert_get fork.pcsKeys c.pcsKeys x).2.1.2 hxk)
      cases hg : AMap.get c'.pcsKeys x with
      | none => exact absurd hg hne
      | some k =>
        have := hcoh.val x k hg
        rw [this]
    · intro x hxk
      unfold Cgka.replayOpsGraph at hr
      simp only [bind, Except.bind] at hr
      split at hr
      · simp at hr
      · split at hr
        · simp at hr
        · cases hr
          refine (foldl_insert_get _ _ x).2.2 ?_
          exact (extendMap_keys c.ownerSks fork.ownerSks x).2 hxk
  · simp at h

-- Alice merges a fork in which Carol's add and update were received.
example : Reach ForkSample.H (ForkSample.alice3 ForkSample.H) ∧ Reach ForkSample.H (ForkSample.fork ForkSample.H) ∧
    (∃ c, (ForkSample.alice3 ForkSample.H).merge ForkSample.H (ForkSample.fork ForkSample.H) = .ok c) :=
  ⟨reachOk_reach ForkSample.alice3_ok, reachOk_reach ForkSample.fork_ok, Sample.ok_of (by decide +kernel)⟩

/-- C19 is false for the heads: after merging a fork that had only moved on, the old head is still listed although a
known operation builds on it; the old add is still listed among the latest adds, so that no current group secret is
recognised although the only real head is an update. -/
theorem C19_heads_wrong : ∃ (H : SOp → Nat) (c fork c' : Cgka), Function.Injective H ∧ ReachOk H c ∧ ReachOk H fork ∧
    Later H c fork ∧ c.merge H fork = .ok c' ∧ c.graph.heads = [3] ∧ fork.graph.heads = [5] ∧
    3 ∈ c'.graph.heads ∧ Names c' 3 4 ∧ Knows c' 4 ∧
    fork.hasPcsKey = .ok true ∧ c'.tree.hasRootKey = .ok true ∧ c'.hasPcsKey = .ok false := by
  obtain ⟨c', hc'⟩ := Sample.ok_of (r := (ForkSample.alice3 ForkSample.H).merge ForkSample.H (ForkSample.fork ForkSample.H)) (by decide +kernel)
  have he : c' = ForkSample.aliceMerged ForkSample.H := by
    unfold ForkSample.aliceMerged ForkSample.merged
    rw [hc']
  subst he
  refine ⟨ForkSample.H, ForkSample.alice3 ForkSample.H, ForkSample.fork ForkSample.H, _, ForkSample.H_inj, ForkSample.alice3_ok,
    ForkSample.fork_ok, .call (cmd := .receive ForkSample.p5) (.call (cmd := .receive ForkSample.p4) .refl trivial) trivial, hc', by decide +kernel, by decide +kernel, by decide +kernel,
    ⟨ForkSample.p4, by decide +kernel, by decide +kernel⟩, by rw [Sample.knows_of]; decide +kernel, by decide +kernel,
    by decide +kernel, by decide +kernel⟩

/-! ## Failed calls (C61) -/

/-- C61, for the recorded operations: a call that returns an error records no operation, moves no head and forgets no
group secret. Missing: the key tree, which a call that fails to sign leaves changed (`C61_failed_signature_diverges`). -/
theorem C61_failed_call_keeps_operations_partial {H : SOp → Nat} (hH : Function.Injective H) {c c' : Cgka} (hr : Reach H c)
    {e : CgkaError} :
    (∀ sign id pk, c.add H sign id pk = (c', .error e) → SameRecord c c') ∧
    (∀ sign id, c.remove H sign id = (c', .error e) → SameRecord c c') ∧
    (∀ sign g n sk, c.update H sign g n sk = (c', .error e) → SameRecord c c') ∧
    (∀ sign g n r ps, c.newAppSecretFor H sign g n r ps = (c', .error e) → SameRecord c c') ∧
    (∀ op, c.mergeConcurrentOperation H op = (c', .error e) → SameRecord c c') := by
  have same : ∀ {x y : Cgka}, Ext x y → SameRecord x y := fun h => ⟨h.graph, h.keep⟩
  have hupd : ∀ sign g n sk, c.update H sign g n sk = (c', .error e) → Ext c c' := by
    intro sign g n sk h
    unfold Cgka.update at h
    split at h
    · cases h; exact .refl _
    · rename_i c1 hr1
      have hx := Ext.replayIfNeeded hr1
      split at h
      · cases h; exact hx
      · simp only at h
        split at h
        · cases h; exact hx.trans (.of_eq rfl rfl rfl rfl rfl rfl)
        · split at h
          · cases h; exact hx.trans (.of_eq rfl rfl rfl rfl rfl rfl)
          · simp at h
  refine ⟨?_, ?_, fun sign g n sk h => same (hupd sign g n sk h), ?_, ?_⟩
  · intro sign id pk h
    refine same ?_
    unfold Cgka.add at h
    split at h
    · simp at h
    · split at h
      · cases h; exact .refl _
      · rename_i c1 hr1
        have hx := Ext.replayIfNeeded hr1
        split at h
        · cases h; exact hx
        · simp only at h
          split at h
          · cases h; exact hx.trans (.of_eq rfl rfl rfl rfl rfl rfl)
          · simp at h
  · intro sign id h
    refine same ?_
    unfold Cgka.remove at h
    split at h
    · simp at h
    · split at h
      · cases h; exact .refl _
      · rename_i c1 hr1
        have hx := Ext.replayIfNeeded hr1
        split at h
        · cases h; exact hx
        · split at h
          · cases h; exact hx
          · simp only at h
            split at h
            · cases h; exact hx.trans (.of_eq rfl rfl rfl rfl rfl rfl)
            · simp at h
  · intro sign g n r ps h
    refine same ?_
    have hfin : ∀ (d : Cgka) (k : Sk) (o : Option SOp), AMap.get d.pcsKeyOps ⟨k⟩ ≠ none →
        d.finishAppSecret k o r ps ≠ (c', .error e) := by
      intro d k o hd hc
      unfold Cgka.finishAppSecret at hc
      split at hc
      · exact hd ‹_›
      · simp at hc
    have hins : ∀ (d : Cgka) (k : Sk) (o : Nat), AMap.get (d.insertPcsKey k o).pcsKeyOps ⟨k⟩ ≠ none := by
      intro d k o
      simp [Cgka.insertPcsKey]
    unfold Cgka.newAppSecretFor at h
    split at h
    · cases h; exact .refl _
    · split at h
      · rename_i c1 e1 hu
        cases h
        exact hupd _ _ _ _ hu
      · exact absurd h (hfin _ _ _ (hins _ _ _))
    · split at h
      · cases h; exact .refl _
      · rename_i c0 k0 h0
        have hcoh := (Ext.treeRoot h0).coh (reach_inv hH hr).2
        split at h
        · rename_i hcon
          refine absurd h (hfin _ _ _ ?_)
          rw [hcoh.ops]
          rw [AMap.contains_iff, AMap.mem_keys_iff] at hcon
          exact hcon
        · split at h
          · rename_i hh
            exfalso
            have := (reach_inv hH hr).1.ne
            rw [(Ext.treeRoot h0).graph] at hh
            exact this hh
          · exact absurd h (hfin _ _ _ (hins _ _ _))
  · intro op h
    refine same ?_
    unfold Cgka.mergeConcurrentOperation at h
    split at h
    · simp at h
    · split at h
      · cases h; exact .refl _
      · split at h
        · split at h
          · simp at h
          · split at h
            · simp at h
            · split at h
              · cases h; exact .refl _
              · simp at h
        · split at h
          · cases h; exact .refl _
          · rename_i c1 hr1
            split at h
            · cases h; exact Ext.replayIfNeeded hr1
            · simp at h

open Sample in
example : Reach H alice2 ∧ (∃ c', alice2.update H noSign gen 0 12 = (c', .error .conversion)) :=
  ⟨alice2_reach, aliceUnsigned, by decide +kernel⟩

/-- C61 is false for the key tree: an update that fails because it cannot be signed still replaces the tree. The replica
then believes it has a current group secret right after a membership change, and encrypts with a secret that is derived
from no recorded operation; nobody who knows the same operations can compute it. -/
theorem C61_failed_signature_diverges : ∃ (H : SOp → Nat) (sign : Payload → Res SOp) (c c' : Cgka) (e : CgkaError) (s : AppSecret),
    Function.Injective H ∧ ReachOk H c ∧ HonestSigner sign ∧
    c.update H sign Sample.gen 0 12 = (c', .error e) ∧
    c.hasPcsKey = .ok false ∧ c'.hasPcsKey = .ok true ∧ c'.tree ≠ c.tree ∧ c'.graph = c.graph ∧
    (∃ h op, c'.graph.heads = [h] ∧ AMap.get c'.graph.ops h = some op ∧ op.payload.isAdd = true) ∧
    (c'.newAppSecretFor H sign Sample.gen 50 7 8).2 = .ok (s, none) ∧
    (∃ e, (Sample.bob2.decryptionKeyFor H (s.encrypt 99)).2 = .error e) ∧ (∀ x, Knows Sample.bob2 x ↔ Knows c' x) := by
  refine ⟨Sample.H, Sample.noSign, Sample.alice2, Sample.aliceUnsigned, .conversion, ⟨⟨1001, 8, 7⟩, ⟨1001⟩, 2, 7, 8⟩,
    Sample.H_inj, Sample.alice2_ok, Sample.noSign_honest, by decide +kernel, by decide +kernel, by decide +kernel,
    by decide +kernel, by decide +kernel, ⟨2, Sample.o2, by decide +kernel, by decide +kernel, rfl⟩, by decide +kernel,
    Sample.error_of (by decide +kernel), Sample.same_of (by decide +kernel) (by decide +kernel)⟩

/-! ## Content names its update (C63) -/

/-- C63, for a group secret that is used for the first time: encrypted content names the update that made its group
secret: the update made for it, or the only head, which is then an update with everything else in its past.
Missing: secrets that are already on record, for which the name can come from content received from anyone
(`C63_fails_after_forged_content`). -/
theorem C63_content_names_update_partial {H : SOp → Nat} (hH : Function.Injective H) {c c' : Cgka} (hr : ReachOk H c)
    {sign : Payload → Res SOp} (hs : GoodSigner sign) {g : BeeKem.Gen} {n r ps : Nat} {s : AppSecret} {op : Option SOp}
    (he : c.newAppSecretFor H sign g n r ps = (c', .ok (s, op))) :
    (∀ o, op = some o → s.pcsUpdateOpHash = H o ∧ Knows c' (H o) ∧ ∃ id path preds, o.payload = .update id path preds) ∧
    (op = none → AMap.get c.pcsKeys s.pcsKeyHash = none → c.graph.heads = [s.pcsUpdateOpHash] ∧
      (∃ o id path preds, AMap.get c.graph.ops s.pcsUpdateOpHash = some o ∧ o.payload = .update id path preds) ∧
      ∀ x, Knows c x ↔ x = s.pcsUpdateOpHash ∨ Before c x s.pcsUpdateOpHash) := by
  unfold Cgka.newAppSecretFor at he
  split at he
  · simp at he
  · split at he
    · simp at he
    · rename_i c1 k o hu
      have hget : AMap.get (c1.insertPcsKey k (H o)).pcsKeyOps ⟨k⟩ = some (H o) := by simp [Cgka.insertPcsKey]
      unfold Cgka.finishAppSecret at he
      rw [hget] at he
      simp only [Prod.mk.injEq, Except.ok.injEq] at he
      obtain ⟨rfl, rfl, rfl⟩ := he
      refine ⟨?_, by simp⟩
      intro o' ho'
      cases ho'
      refine ⟨rfl, ?_⟩
      have hwr := hu
      unfold Cgka.update at hu
      split at hu
      · simp at hu
      · split at hu
        · simp at hu
        · simp only at hu
          split at hu
          · simp at hu
          · rename_i t sks m k' path hep
            split at hu
            · simp at hu
            · rename_i op' hop
              simp only [Prod.mk.injEq, Except.ok.injEq] at hu
              obtain ⟨h1, h2, rfl⟩ := hu
              refine ⟨?_, ?_⟩
              · rw [knows_iff, ← h1]
                simp [Cgka.insertPcsKey, Graph.addLocalOp, Graph.addOpAndUpdateHeads]
              · obtain ⟨o'', ho1, ho2⟩ := hs (.update _ path _)
                rw [hop] at ho1
                cases ho1
                exact ⟨_, _, _, ho2⟩
  · rename_i hp
    split at he
    · simp at he
    · rename_i c1 k hk
      have hx := Ext.treeRoot hk
      obtain ⟨b, hb, hcur⟩ := C16_current_secret hH hr
      rw [hp] at hb
      cases hb
      obtain ⟨_, _, h, id, path, preds, iss, sg, hh, ho, hcov⟩ := hcur rfl
      have hsame : c1.pcsKeys = c.pcsKeys := by
        unfold Cgka.pcsKeyFromTreeRoot at hk
        split at hk
        · cases hk; rfl
        · split at hk
          · simp at hk
          · split at hk
            · simp only [bind, Except.bind, pure, Except.pure] at hk
              split at hk
              · simp at hk
              · cases hk; rfl
            · simp at hk
      split at he
      · rename_i hcon
        unfold Cgka.finishAppSecret at he
        split at he
        · simp at he
        · simp only [Prod.mk.injEq, Except.ok.injEq] at he
          obtain ⟨rfl, rfl, rfl⟩ := he
          refine ⟨by simp, ?_⟩
          intro _ hn
          exfalso
          rw [AMap.contains_iff, AMap.mem_keys_iff, hsame] at hcon
          exact hcon hn
      · rw [hx.graph, hh] at he
        simp only at he
        have hget : AMap.get (c1.insertPcsKey k h).pcsKeyOps ⟨k⟩ = some h := by simp [Cgka.insertPcsKey]
        unfold Cgka.finishAppSecret at he
        rw [hget] at he
        simp only [Prod.mk.injEq, Except.ok.injEq] at he
        obtain ⟨rfl, rfl, rfl⟩ := he
        refine ⟨by simp, ?_⟩
        intro _ _
        exact ⟨hh, ⟨_, id, path, preds, ho, rfl⟩, hcov⟩

open Sample in
example : ReachOk H bob3 ∧ GoodSigner (sign 9) ∧ AMap.get bob3.pcsKeys ⟨1001⟩ = none ∧
    (bob3.newAppSecretFor H (sign 9) gen 50 7 8).2 = .ok (⟨⟨1001, 8, 7⟩, ⟨1001⟩, 3, 7, 8⟩, none) :=
  ⟨bob3_ok, sign_good 9, by decide +kernel, by decide +kernel⟩

/-- C63 is false in general: after merely asking for the key of forged content, which needs no secret to make, Bob's own
content names an operation that is no update at all, and a member who must derive the secret from the named operation
gets an error or another secret. -/
theorem C63_fails_after_forged_content : ∃ (H : SOp → Nat) (c : Cgka) (forged : EncContent) (s : AppSecret) (o : SOp),
    Function.Injective H ∧ ReachOk H c ∧
    (∀ k, forged.sealedBy = k → (c.decryptionKeyFor H forged).2 ≠ .ok k) ∧
    ((step H c (.decrypt forged)).newAppSecretFor H (Sample.sign 9) Sample.gen 50 7 8).2 = .ok (s, none) ∧
    AMap.get c.graph.ops s.pcsUpdateOpHash = some o ∧ o.payload.isAdd = true ∧
    -- Carol, who has received the same operations and one more update, could read the same content had it named its update
    (Sample.carol7.decryptionKeyFor H ({ s with pcsUpdateOpHash := 3 }.encrypt 99)).2 = .ok s.key ∧
    (∃ e, (Sample.carol7.decryptionKeyFor H (s.encrypt 99)).2 = .error e) := by
  refine ⟨Sample.H, Sample.bob3, ⟨⟨0, 0, 0⟩, 0, ⟨1001⟩, 1, 5, 5⟩, ⟨⟨1001, 8, 7⟩, ⟨1001⟩, 1, 7, 8⟩, Sample.o1, Sample.H_inj,
    Sample.bob3_ok, ?_, by decide +kernel, by decide +kernel, rfl, by decide +kernel, Sample.error_of (by decide +kernel)⟩
  rintro k rfl
  decide +kernel

end Verif.Cgka.Props
