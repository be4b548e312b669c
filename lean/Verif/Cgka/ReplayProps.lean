import Verif.Cgka.HangSample
import Verif.Cgka.SerialSample
import Verif.Cgka.ReplaySpec
import Verif.Cgka.CalmCalls
import Verif.Cgka.Props
import Verif.TreeMath.Outside

/-! # Rebuilding a group from its operations (C15, C86) -/

namespace Verif.Cgka.ReplayProps

open Verif.BeeKem Verif.Cgka

/-- C86 is false. Alice removes the member at the last leaf while Bob adds a member, who then updates. All three run the
library. When Carol has received the three operations, rebuilding applies the removal first, so that the new member is put at
leaf 3 of the four-leaf tree; installing its update, which was made at leaf 4 of an eight-leaf tree, starts the loop of
`direct_path` at a leaf outside the tree, and the loop does not end, however many steps it is given. Every later addition,
removal and update by Carol, and every delivery of an operation on top of both, runs into it. (In the compiled code the vector
being filled grows until memory runs out; with overflow checks the arithmetic panics after some thirty steps.) -/
theorem C86_fails_concurrent_add_remove : ∃ (H : SOp → Nat) (c : Cgka) (pc : PathChange) (ps : List Nat) (r : Cgka),
    Function.Injective H ∧ Trusted H c ∧ OneRoot c ∧ Tidy c ∧ c.tree.containsId 5 = false ∧
    -- what a rebuild has when only the update is left
    (c.rebuildStart H >>= fun s => s.applyOps H
      [Sample.o0, HangSample.o1, HangSample.o2, HangSample.o3, HangSample.o4, HangSample.o5]) = .ok r ∧
    c.graph.topsortGraph = .ok [[Sample.o0], [HangSample.o1], [HangSample.o2], [HangSample.o3],
      [HangSample.o4, HangSample.o5, HangSample.o6]] ∧
    HangSample.o6.payload = .update 5 pc ps ∧ r.tree.containsId 5 = true ∧
    -- the loop that `apply_path` starts
    r.tree.treeSize = 7 ∧ pc.leafIdx = 4 ∧ r.tree.applyPath pc = .error .diverge ∧
    (∀ fuel, TreeMath.directPathLoop (TreeMath.root 7).u32 fuel (TreeMath.TreeNodeIndex.leaf 4).u32 = none) ∧
    -- what runs into it
    (∀ sign g n sk, c.update H sign g n sk = (c, .error .diverge)) ∧
    (∀ sign id pk, c.tree.containsId id = false → c.add H sign id pk = (c, .error .diverge)) ∧
    (∀ sign id, c.tree.containsId id = true → c.remove H sign id = (c, .error .diverge)) ∧
    (∀ op, ¬ Knows c (H op) → (∀ x, x ∈ op.payload.preds ↔ x = 4 ∨ x = 6) →
      c.mergeConcurrentOperation H op = (c, .error .diverge)) := by
  have hrep : HangSample.carol.replayIfNeeded HangSample.H = .error .diverge := by decide +kernel
  have hstuck := Props.replay_stuck hrep
  have hheads : HangSample.carol.graph.heads = [6, 4] := by decide +kernel
  have hok : ∃ r, (HangSample.carol.rebuildStart HangSample.H >>= fun s => s.applyOps HangSample.H
      [Sample.o0, HangSample.o1, HangSample.o2, HangSample.o3, HangSample.o4, HangSample.o5]) = .ok r := Sample.ok_of (by decide +kernel)
  obtain ⟨r, hr⟩ := hok
  have hcheck : (match (HangSample.carol.rebuildStart HangSample.H >>= fun s => s.applyOps HangSample.H
      [Sample.o0, HangSample.o1, HangSample.o2, HangSample.o3, HangSample.o4, HangSample.o5]) with
    | .ok r => r.tree.containsId 5 && decide (r.tree.treeSize = 7) && (match HangSample.o6.payload with
      | .update _ pc _ => decide (r.tree.applyPath pc = .error .diverge)
      | _ => false)
    | .error _ => false) = true := by decide +kernel
  rw [hr] at hcheck
  simp only [Bool.and_eq_true, decide_eq_true_eq] at hcheck
  refine ⟨HangSample.H, HangSample.carol, _, _, r, HangSample.H_inj, HangSample.carol_trusted, Sample.oneRoot_of 0 (by decide +kernel),
    Sample.tidy_of id (by decide +kernel) (by decide +kernel), by decide +kernel, hr, by decide +kernel, rfl, hcheck.1.1, hcheck.1.2, rfl, ?_, ?_,
    hstuck.1, hstuck.2.1, hstuck.2.2.1, ?_⟩
  · have := hcheck.2
    unfold HangSample.o6 at this
    simpa using this
  · intro fuel
    exact TreeMath.directPathLoop_leaf_outside 2 fuel (by decide)
  · intro op hk hp
    refine hstuck.2.2.2 op ?_ ?_ ?_
    · rw [Sample.knows_of] at hk
      simpa [Graph.containsOpHash] using hk
    · rw [containsPredecessors_iff]
      intro p hpp
      rcases (hp p).1 hpp with rfl | rfl <;> decide +kernel
    · unfold Graph.headsContainedIn
      rw [hheads]
      simp [(hp 6).2 (Or.inr rfl), (hp 4).2 (Or.inl rfl)]

/-! ## Without concurrent removals -/

theorem serial_of {H : SOp → Nat} {c : Cgka} (h : GInv H c.graph) (hs : NoConcurrentRemoval c) : SerialG c.graph := by
  intro x y hx hy
  rcases hs x y hx ((knows_iff c y).2 hy) with e | e | e
  · exact .inl e
  · exact .inr (.inl ((before_iff h _ _).1 e))
  · exact .inr (.inr ((before_iff h _ _).1 e))

theorem calm_returns {α : Type} {r : Res α} (h : Calm r) : Returns r := by
  constructor
  · intro e
    have := h _ e
    simp [fatal] at this
  · intro s e
    have := h _ e
    simp [fatal] at this

theorem conflict_of {t : BeeKem} (h : Conflicted t) : LeafConflict t := by
  obtain ⟨j, l, a, b, more, h1, h2⟩ := h
  refine ⟨l.id, a, b, more, ?_⟩
  unfold BeeKem.leafD at h1
  rw [Option.join_eq_some_iff] at h1
  have := List.mem_of_getElem? h1
  rw [← h2]
  exact this

/-- C15, as long as no removal is concurrent with anything: whatever additions and updates are concurrent — even additions of
the same member, at the same leaf — rebuilding the group from its operations succeeds. Missing: removals that are concurrent with
other operations, for which the claim is false (`C15_fails_for_concurrent_removes`, `C86_fails_concurrent_add_remove`). -/
theorem C15_no_concurrent_removal_partial {H : SOp → Nat} (hH : Function.Injective H) {c : Cgka} (hc : Trusted H c) (h1 : OneRoot c)
    (hs : NoConcurrentRemoval c) : (∃ t, ReplaysTo H c t) ∧ ∃ c', c.replayIfNeeded H = .ok c' ∧ ReplaysTo H c c'.tree := by
  have sc := reachOk_inv hH (trusted_ok hc)
  obtain ⟨c1, r, h, e1, e2, e3, e4⟩ := replayIf_ok hH hc ((oneRoot_iff sc.graph).1 h1) (serial_of sc.graph hs)
  have := rebuilt_replays.1 ⟨r, e2, e3.symm⟩
  exact ⟨⟨_, this⟩, c1, e1, this⟩

/-- C86, as long as no removal is concurrent with anything. An addition succeeds. A removal succeeds or fails with one of two
errors. Decryption returns. An update and an encryption return, unless a member has updated twice concurrently. Missing: removals
concurrent with other operations, and members that update twice concurrently; for both the claim is false
(`C86_fails_concurrent_add_remove`, `C06_fails_for_conflicting_leaf`). -/
theorem C86_returns_partial {H : SOp → Nat} (hH : Function.Injective H) {c : Cgka} (hc : Trusted H c) (h1 : OneRoot c)
    (hs : NoConcurrentRemoval c) {sign : Payload → Res SOp} (hg : GoodSigner sign) :
    (∀ id pk, ∃ o, (c.add H sign id pk).2 = .ok o) ∧
    (∀ id, (∃ o, (c.remove H sign id).2 = .ok o) ∨ (c.remove H sign id).2 = .error .removeLastMember ∨
      (c.remove H sign id).2 = .error .identifierNotFound) ∧
    (∀ e, Returns (c.decryptionKeyFor H e).2) ∧
    (∀ g n sk, Returns (c.update H sign g n sk).2 ∨ ∃ t, ReplaysTo H c t ∧ LeafConflict t) ∧
    (∀ g n r ps, Returns (c.newAppSecretFor H sign g n r ps).2 ∨ ∃ t, ReplaysTo H c t ∧ LeafConflict t) := by
  have sc := reachOk_inv hH (trusted_ok hc)
  have a := (oneRoot_iff sc.graph).1 h1
  have b := serial_of sc.graph hs
  refine ⟨fun id pk => add_returns hH hc a b hg id pk, fun id => remove_returns hH hc a b hg id,
    fun e => calm_returns (decrypt_returns hH hc a b e), fun g n sk => ?_, fun g n r ps => ?_⟩
  · rcases update_returns hH hc a b hg g n sk with e | ⟨_, t, e1, e2⟩
    · exact .inl (calm_returns e)
    · exact .inr ⟨t, e1, conflict_of e2⟩
  · rcases encrypt_returns hH hc a b hg g n r ps with e | ⟨_, t, e1, e2⟩
    · exact .inl (calm_returns e)
    · exact .inr ⟨t, e1, conflict_of e2⟩

/-- C88, as long as no removal is concurrent with anything and no member has updated twice concurrently. A member's update succeeds
and gives the member's leaf the new key. Whoever is not a member but holds the key of the public member updates the public
member's leaf, which keeps its key. Missing: the other histories, for which the claim is false
(`C15_fails_for_concurrent_removes`, `C86_fails_concurrent_add_remove`, `C06_fails_for_conflicting_leaf`). -/
theorem C88_update_partial {H : SOp → Nat} (hH : Function.Injective H) {c : Cgka} (hc : Trusted H c) (h1 : OneRoot c)
    (hs : NoConcurrentRemoval c) {sign : Payload → Res SOp} (hg : GoodSigner sign) (g : BeeKem.Gen) (n : Nat) (sk : Sk) {t : BeeKem}
    (hr : ReplaysTo H c t) (hn : ¬ LeafConflict t) :
    (t.containsId c.ownerId = true → ∃ k op pc ps, (c.update H sign g n sk).2 = .ok (k, op) ∧
      op.payload = .update c.ownerId pc ps ∧ pc.leafPk = .share (shareKey sk)) ∧
    (t.containsId c.ownerId = false → ∀ pk, t.nodeKeyForId MemberId.pub = .ok (.share pk) → AMap.get c.ownerSks pk ≠ none →
      ∃ k op pc ps, (c.update H sign g n sk).2 = .ok (k, op) ∧ op.payload = .update MemberId.pub pc ps ∧ pc.leafPk = .share pk) := by
  have sc := reachOk_inv hH (trusted_ok hc)
  exact update_ok hH hc ((oneRoot_iff sc.graph).1 h1) (serial_of sc.graph hs) hg g n sk hr (fun h => hn (conflict_of h))

/-- C88 fails: Carol is a member, and nobody removed them; after others added and removed members concurrently, Carol cannot
replace their key, whatever the random values. -/
theorem C88_fails : ∃ (H : SOp → Nat) (c : Cgka), Function.Injective H ∧ Trusted H c ∧ OneRoot c ∧ Tidy c ∧
    c.tree.containsId c.ownerId = true ∧
    (∀ h op, AMap.get c.graph.ops h = some op → ∀ leaf gone preds, op.payload ≠ .remove c.ownerId leaf gone preds) ∧
    ∀ sign g n sk, c.update H sign g n sk = (c, .error .diverge) := by
  refine ⟨HangSample.H, HangSample.carol, HangSample.H_inj, HangSample.carol_trusted, Sample.oneRoot_of 0 (by decide +kernel),
    Sample.tidy_of id (by decide +kernel) (by decide +kernel), by decide +kernel, ?_, (Props.replay_stuck (by decide +kernel)).1⟩
  intro h op ho leaf gone preds he
  have hall : (HangSample.carol.graph.ops.all (fun p => match p.2.payload with
    | .remove i _ _ _ => decide (i ≠ HangSample.carol.ownerId)
    | _ => true)) = true := by decide +kernel
  have := List.all_eq_true.1 hall _ (AMap.mem_of_get ho)
  simp only [he, decide_eq_true_eq] at this
  exact this rfl

/-- C88 for encryption: in the same situations, if the group has no current secret, encryption makes an update and succeeds. -/
theorem C88_encrypt_partial {H : SOp → Nat} (hH : Function.Injective H) {c : Cgka} (hc : Trusted H c) (h1 : OneRoot c)
    (hs : NoConcurrentRemoval c) {sign : Payload → Res SOp} (hg : GoodSigner sign) (g : BeeKem.Gen) (n r ps : Nat) {t : BeeKem}
    (hr : ReplaysTo H c t) (hn : ¬ LeafConflict t) (hkey : c.hasPcsKey = .ok false)
    (hm : t.containsId c.ownerId = true ∨ t.containsId c.ownerId = false ∧ ∃ pk, t.nodeKeyForId MemberId.pub = .ok (.share pk) ∧
      AMap.get c.ownerSks pk ≠ none) :
    ∃ s op, (c.newAppSecretFor H sign g n r ps).2 = .ok (s, some op) ∧ s.contentRef = r ∧ s.predRefs = ps ∧ s.pcsUpdateOpHash = H op := by
  have hu := C88_update_partial hH hc h1 hs hg g (n + 1) (g n) hr hn
  have : ∃ k op, (c.update H sign g (n + 1) (g n)).2 = .ok (k, op) := by
    rcases hm with hm | ⟨hm, pk, e1, e2⟩
    · obtain ⟨k, op, pc, ps, e, -⟩ := hu.1 hm
      exact ⟨k, op, e⟩
    · obtain ⟨k, op, pc, ps, e, -⟩ := hu.2 hm pk e1 e2
      exact ⟨k, op, e⟩
  obtain ⟨k, op, e⟩ := this
  unfold Cgka.newAppSecretFor
  rw [hkey]
  dsimp only
  cases hq : c.update H sign g (n + 1) (g n) with
  | mk c1 x =>
    rw [hq] at e
    simp only at e
    subst e
    dsimp only
    unfold Cgka.finishAppSecret
    have : AMap.get (c1.insertPcsKey k (H op)).pcsKeyOps ⟨k⟩ = some (H op) := by
      show AMap.get (AMap.insert c1.pcsKeyOps ⟨k⟩ (H op)) ⟨k⟩ = _
      rw [AMap.get_insert, if_pos rfl]
    rw [this]
    exact ⟨_, _, rfl, rfl, rfl, rfl⟩

/-- C86 for deliveries, as long as no removal is concurrent with anything: an operation that a device has recorded is taken in as
soon as everything it names is known, ignored when it is known already, and refused with an error otherwise. The removals the
receiver knows must be known to whoever made the operation. -/
theorem C86_delivery_partial {H : SOp → Nat} (hH : Function.Injective H) {c d : Cgka} {op : SOp} (hc : Trusted H c) (hd : Trusted H d)
    (h1 : OneRoot c) (hs : NoConcurrentRemoval c) (hop : AMap.get d.graph.ops (H op) = some op)
    (hrem : ∀ x, Removal c x → Before d x (H op)) :
    (Knows c (H op) → c.mergeConcurrentOperation H op = (c, .ok false)) ∧
    (¬ Knows c (H op) → (∀ p ∈ op.payload.preds, Knows c p) → (c.mergeConcurrentOperation H op).2 = .ok true) ∧
    (¬ Knows c (H op) → (∃ p ∈ op.payload.preds, ¬ Knows c p) →
      c.mergeConcurrentOperation H op = (c, .error .outOfOrderOperation)) := by
  have sc := reachOk_inv hH (trusted_ok hc)
  have sd := reachOk_inv hH (trusted_ok hd)
  refine ⟨fun hk => ?_, fun hk hp => ?_, fun hk hp => ?_⟩
  · unfold Cgka.mergeConcurrentOperation
    rw [if_pos ((containsOpHash_iff _ _).2 ((knows_iff _ _).1 hk))]
  · refine receive_accepts hH hc hd ((oneRoot_iff sc.graph).1 h1) (serial_of sc.graph hs) hop ?_ ?_ ?_
    · by_contra hc
      exact hk ((knows_iff _ _).2 hc)
    · exact fun p h => (knows_iff _ _).1 (hp p h)
    · exact fun R hR => (before_iff sd.graph _ _).1 (hrem R hR)
  · unfold Cgka.mergeConcurrentOperation
    rw [if_neg (by rw [containsOpHash_iff, ← knows_iff]; exact hk), if_pos]
    obtain ⟨p, h1, h2⟩ := hp
    have : ¬ c.graph.containsPredecessors op.payload.preds = true := by
      rw [containsPredecessors_iff]
      exact fun hall => h2 ((knows_iff _ _).2 (hall p h1))
    simpa using this

theorem names_of {c : Cgka} {p x : Nat}
    (h : (match AMap.get c.graph.ops x with | some o => decide (p ∈ o.payload.preds) | none => false) = true) : Names c p x := by
  cases ho : AMap.get c.graph.ops x with
  | none => rw [ho] at h; simp at h
  | some o => rw [ho] at h; exact ⟨o, ho, by simpa using h⟩

theorem removal_only {c : Cgka} {z : Nat} (h : ∀ p ∈ c.graph.ops, p.2.payload.isStructural = true → p.2.payload.isAdd = false → p.1 = z)
    {x : Nat} (hx : Removal c x) : x = z := by
  obtain ⟨o, id, i, ks, ps, ho, hp⟩ := hx
  exact h (x, o) (AMap.mem_of_get ho) (by rw [hp]; rfl) (by rw [hp]; rfl)

open SerialSample in
theorem carol_serial : NoConcurrentRemoval carol ∧ NoConcurrentRemoval carol6 := by
  constructor
  · intro x y hx hy
    have := removal_only (c := carol) (z := 4) (by decide +kernel) hx
    subst this
    have hy' : y ∈ AMap.keys carol.graph.ops := by
      rw [AMap.mem_keys_iff]; exact (knows_iff _ _).1 hy
    have hk : ∀ y ∈ AMap.keys carol.graph.ops, y ∈ [0, 1, 2, 3, 4, 5, 6, 7] := by decide +kernel
    have n01 : Names carol 0 1 := names_of (by decide +kernel)
    have n12 : Names carol 1 2 := names_of (by decide +kernel)
    have n23 : Names carol 2 3 := names_of (by decide +kernel)
    have n34 : Names carol 3 4 := names_of (by decide +kernel)
    have n45 : Names carol 4 5 := names_of (by decide +kernel)
    have n46 : Names carol 4 6 := names_of (by decide +kernel)
    have n67 : Names carol 6 7 := names_of (by decide +kernel)
    have := hk y hy'
    simp only [List.mem_cons, List.not_mem_nil, or_false] at this
    rcases this with rfl | rfl | rfl | rfl | rfl | rfl | rfl | rfl
    · exact .inr (.inr (.more (.more (.more (.direct n01) n12) n23) n34))
    · exact .inr (.inr (.more (.more (.direct n12) n23) n34))
    · exact .inr (.inr (.more (.direct n23) n34))
    · exact .inr (.inr (.direct n34))
    · exact .inl rfl
    · exact .inr (.inl (.direct n45))
    · exact .inr (.inl (.direct n46))
    · exact .inr (.inl (.more (.direct n46) n67))
  · intro x y hx hy
    have := removal_only (c := carol6) (z := 4) (by decide +kernel) hx
    subst this
    have hy' : y ∈ AMap.keys carol6.graph.ops := by
      rw [AMap.mem_keys_iff]; exact (knows_iff _ _).1 hy
    have hk : ∀ y ∈ AMap.keys carol6.graph.ops, y ∈ [0, 1, 2, 3, 4, 5, 6] := by decide +kernel
    have n01 : Names carol6 0 1 := names_of (by decide +kernel)
    have n12 : Names carol6 1 2 := names_of (by decide +kernel)
    have n23 : Names carol6 2 3 := names_of (by decide +kernel)
    have n34 : Names carol6 3 4 := names_of (by decide +kernel)
    have n45 : Names carol6 4 5 := names_of (by decide +kernel)
    have n46 : Names carol6 4 6 := names_of (by decide +kernel)
    have := hk y hy'
    simp only [List.mem_cons, List.not_mem_nil, or_false] at this
    rcases this with rfl | rfl | rfl | rfl | rfl | rfl | rfl
    · exact .inr (.inr (.more (.more (.more (.direct n01) n12) n23) n34))
    · exact .inr (.inr (.more (.more (.direct n12) n23) n34))
    · exact .inr (.inr (.more (.direct n23) n34))
    · exact .inr (.inr (.direct n34))
    · exact .inl rfl
    · exact .inr (.inl (.direct n45))
    · exact .inr (.inl (.direct n46))

open SerialSample in
/-- The hypotheses hold of a replica that has seen a removal and, after it, two concurrent additions at the same leaf and an
update; it has two heads, so the rebuild is a real one. -/
example : Function.Injective H ∧ Trusted H carol ∧ OneRoot carol ∧ NoConcurrentRemoval carol ∧ (∃ x, Removal carol x) ∧
    carol.graph.heads.length = 2 ∧ GoodSigner (Sample.sign 9) :=
  ⟨H_inj, carol_trusted, Sample.oneRoot_of 0 (by decide +kernel), carol_serial.1,
    ⟨4, HangSample.o4, 4, 3, [], [3], by decide +kernel, rfl⟩, by decide +kernel, Sample.sign_good 9⟩

open SerialSample in
/-- Delivery of Bob's update to a replica that has the two concurrent additions. -/
example : Trusted H carol6 ∧ Trusted H bob7 ∧ OneRoot carol6 ∧ NoConcurrentRemoval carol6 ∧ AMap.get bob7.graph.ops (H o7) = some o7 ∧
    (∀ x, Removal carol6 x → Before bob7 x (H o7)) ∧ ¬ Knows carol6 (H o7) ∧ (∀ p ∈ o7.payload.preds, Knows carol6 p) ∧
    carol6.graph.heads.length = 2 := by
  refine ⟨carol6_trusted, bob7_trusted, Sample.oneRoot_of 0 (by decide +kernel), carol_serial.2, by decide +kernel, ?_, ?_, ?_,
    by decide +kernel⟩
  · intro x hx
    have := removal_only (c := carol6) (z := 4) (by decide +kernel) hx
    subst this
    have : H o7 = 7 := by decide +kernel
    rw [this]
    exact .more (.direct (x := 6) (names_of (by decide +kernel))) (names_of (by decide +kernel))
  · rw [Sample.knows_of]; decide +kernel
  · intro p hp
    have : p = 6 := by
      have h : ∀ p ∈ o7.payload.preds, p = 6 := by decide +kernel
      exact h p hp
    subst this
    rw [Sample.knows_of]; decide +kernel

theorem replayed_of {H : SOp → Nat} {c : Cgka} {p : BeeKem → Bool} (h : SerialSample.replayed H c p = true) :
    ∃ t, ReplaysTo H c t ∧ p t = true := by
  unfold SerialSample.replayed at h
  split at h
  · rename_i r hr
    exact ⟨r.tree, rebuilt_replays.1 ⟨r, hr, rfl⟩, h⟩
  · cases h

theorem noConflict_of {t : BeeKem} (h : SerialSample.noConflict t = true) : ¬ LeafConflict t := by
  rintro ⟨id, a, b, more, hm⟩
  unfold SerialSample.noConflict at h
  rw [List.all_eq_true] at h
  exact absurd (h _ hm) (by simp)

open SerialSample in
/-- Carol is a member, with two heads to merge and no current group secret. -/
example : ∃ t, ReplaysTo H carol t ∧ ¬ LeafConflict t ∧ t.containsId carol.ownerId = true ∧ carol.hasPcsKey = .ok false := by
  obtain ⟨t, h1, h2⟩ := replayed_of (H := H) (c := carol) (p := fun t => noConflict t && t.containsId carol.ownerId) (by decide +kernel)
  rw [Bool.and_eq_true] at h2
  exact ⟨t, h1, noConflict_of h2.1, h2.2, by decide +kernel⟩

open SerialSample in
/-- Someone who is not a member of a public group. -/
example : Function.Injective HQ ∧ Trusted HQ nine ∧ OneRoot nine ∧ NoConcurrentRemoval nine ∧ ∃ t, ReplaysTo HQ nine t ∧ ¬ LeafConflict t ∧
    t.containsId nine.ownerId = false ∧ t.nodeKeyForId MemberId.pub = .ok (.share ⟨77⟩) ∧ AMap.get nine.ownerSks ⟨77⟩ ≠ none := by
  obtain ⟨t, h1, h2⟩ := replayed_of (H := HQ) (c := nine)
    (p := fun t => noConflict t && (!t.containsId nine.ownerId && decide (t.nodeKeyForId MemberId.pub = .ok (.share ⟨77⟩)))) (by decide +kernel)
  rw [Bool.and_eq_true, Bool.and_eq_true, Bool.not_eq_true', decide_eq_true_eq] at h2
  refine ⟨HQ_inj, nine_trusted, Sample.oneRoot_of 0 (by decide +kernel), ?_, t, h1, noConflict_of h2.1, h2.2.1, h2.2.2, by decide +kernel⟩
  rintro x y ⟨o, id, i, ks, ps, ho, hp⟩ -
  have h : ∀ p ∈ nine.graph.ops, p.2.payload.isStructural = true → p.2.payload.isAdd = true := by decide +kernel
  have := h _ (AMap.mem_of_get ho) (by rw [hp]; rfl)
  rw [hp] at this
  cases this

end Verif.Cgka.ReplayProps
