import Verif.BeeKem.Struct
import Verif.BeeKem.Spec
import Verif.BeeKem.Decrypt
import Verif.BeeKem.Apply

/-!
# Key-tree properties C04–C10, C58

The statements use only `Tree.lean` (the model of `beekem/src/tree.rs`) and `Spec.lean`.
-/

set_option linter.dupNamespace false

namespace Verif.BeeKem.Props

open Verif.TreeMath Verif.BeeKem Verif.BeeKem.Spec

/-! ## C04: member bookkeeping -/

/-- **C04.** After any sequence of successful tree operations the tree reports as members exactly the
identities added and not removed since; their number is the reported group size; each has exactly one
occupied leaf and every occupied leaf belongs to one of them. -/
theorem C04_members_exact {t : BeeKem} {ms : List MemberId} (H : History t ms) :
    (∀ id, t.containsId id = true ↔ id ∈ ms) ∧ ms.Nodup ∧ t.memberCount = ms.length ∧
    (∀ id ∈ ms, ∃ i l, LeafAt t i l ∧ l.id = id ∧
      ∀ j l', LeafAt t j l' → l'.id = id → j = i ∧ l' = l) ∧
    (∀ i l, LeafAt t i l → l.id ∈ ms) := by
  obtain ⟨⟨h, w⟩, hk⟩ := BeeKem.history_inv H
  refine ⟨?_, ?_, ?_, ?_, ?_⟩
  · intro id
    rw [← hk, AMap.mem_keys_iff, BeeKem.contains_get, ← Option.isSome_iff_exists, Option.isSome_iff_ne_none]
  · rw [← hk]; exact w.wf
  · rw [← hk]; simp [BeeKem.memberCount, AMap.keys]
  · intro id hid
    rw [← hk, AMap.mem_keys_iff, ← Option.isSome_iff_ne_none, Option.isSome_iff_exists] at hid
    obtain ⟨i, hi⟩ := hid
    obtain ⟨l, hl, hlid⟩ := w.ids id i hi
    refine ⟨i, l, BeeKem.leafAt_iff.2 hl, hlid, ?_⟩
    intro j l' hj hlj
    have h1 := w.back j l' (BeeKem.leafAt_iff.1 hj)
    rw [hlj, hi] at h1
    simp only [Option.some.injEq] at h1
    subst h1
    refine ⟨rfl, ?_⟩
    have h2 := BeeKem.leafAt_iff.1 hj
    rw [hl] at h2
    exact (Option.some.inj h2).symm
  · intro i l hl
    have h1 := w.back i l (BeeKem.leafAt_iff.1 hl)
    rw [← hk, AMap.mem_keys_iff, h1]
    simp

/-- **C04, safety.** In any such tree, the only ways an operation with in-range positions can fail are
the documented errors and one `expect`-style panic on a conflicting leaf key; there is no
out-of-bounds access, no underflow and no endless loop. -/
theorem C04_no_wild_access {t : BeeKem} {ms : List MemberId} (H : History t ms) (op : TreeOp)
    (hok : op.Ok t) :
    (∃ t', op.run t = .ok t') ∨ op.run t = .error .removeLastMember ∨
    op.run t = .error .identifierNotFound ∨ op.run t = .error .secretKeyNotFound ∨
    op.run t = .error (.panic "Sibling resolution nodes should have exactly one ShareKey") := by
  obtain ⟨⟨h, w⟩, hk⟩ := BeeKem.history_inv H
  rcases BeeKem.run_ok w op hok with ⟨t', _, h1, _⟩ | ⟨h1, _⟩ | h1 | h1 | h1
  · exact Or.inl ⟨t', h1⟩
  · exact Or.inr (Or.inl h1)
  · exact Or.inr (Or.inr (Or.inl h1))
  · exact Or.inr (Or.inr (Or.inr (Or.inl h1)))
  · exact Or.inr (Or.inr (Or.inr (Or.inr h1)))

/-- **C04, converse.** Adding always works, removing works for a member of a group of at least two. -/
theorem C04_add_remove_succeed {t : BeeKem} {ms : List MemberId} (H : History t ms) (id : MemberId) (pk : NodeKey) :
    (∃ t', (TreeOp.add id pk).run t = .ok t') ∧
    (ms.length ≠ 1 → ∃ t', (TreeOp.remove id).run t = .ok t') := by
  obtain ⟨⟨h, w⟩, hk⟩ := BeeKem.history_inv H
  constructor
  · cases hc : t.containsId id with
    | true => exact ⟨t, by simp [TreeOp.run, hc]⟩
    | false =>
      obtain ⟨t', h', h1, _⟩ := BeeKem.pushLeaf_full w.toWInv id pk
      exact ⟨t', by simp [TreeOp.run, hc, h1, bind, Except.bind, pure, Except.pure]⟩
  · intro hlen
    have hm : t.memberCount ≠ 1 := by
      have : t.memberCount = ms.length := by rw [← hk]; simp [BeeKem.memberCount, AMap.keys]
      omega
    cases hc : t.containsId id with
    | false => exact ⟨t, by simp [TreeOp.run, hc]⟩
    | true =>
      obtain ⟨i, hi⟩ := BeeKem.contains_get.1 hc
      obtain ⟨t', B, h1, _⟩ := BeeKem.removeId_ok w.toWInv hi hm
      exact ⟨t', by simp [TreeOp.run, hc, h1, bind, Except.bind, pure, Except.pure]⟩

/-! ## C05: membership changes retire the group secret -/

/-- **C05.** Right after an add (even of an identity already present, as a concurrent add does) or a
remove there is no root key, whatever the tree was before; right after a key update there is one. -/
theorem C05_membership_change_retires_root {t : BeeKem} {ms : List MemberId} (H : History t ms) :
    (∀ id pk t' i, t.pushLeaf id pk = .ok (t', i) → t'.hasRootKey = .ok false) ∧
    (∀ id t' x, t.removeId id = .ok (t', x) → t'.hasRootKey = .ok false) ∧
    (∀ g c id pk sks t' x, t.encryptPath g c id pk sks = .ok (t', x) → t'.hasRootKey = .ok true) := by
  obtain ⟨⟨h, w⟩, hk⟩ := BeeKem.history_inv H
  have hroot : ∀ {t' : BeeKem} {h' : Nat}, BeeKem.Shape t' h' → t'.innerD (nodeInner (h' - 1) 0) = none →
      t'.hasRootKey = .ok false := by
    intro t' h' hs hn
    rw [BeeKem.hasRootKey_ok hs]
    obtain ⟨k, rfl⟩ : ∃ k, h' = k + 1 := ⟨h' - 1, by have := hs.pos; omega⟩
    simp only [Nat.add_sub_cancel] at hn
    simp [BeeKem.skipD, hn]
  have hmem : ∀ {h' b : Nat}, 1 ≤ h' → b < 2 ^ h' → nodeInner (h' - 1) 0 ∈ BeeKem.path h' b := by
    intro h' b hp hb
    rw [BeeKem.mem_path_nodeInner]
    refine ⟨by omega, ?_⟩
    have : h' - 1 + 1 = h' := by omega
    rw [this, Nat.div_eq_of_lt hb]
  refine ⟨?_, ?_, ?_⟩
  · intro id pk t' i hp
    obtain ⟨t1, h', h1, h2, _, h4, _, h6, h7⟩ := BeeKem.pushLeaf_full w.toWInv id pk
    rw [hp] at h1
    simp only [Except.ok.injEq, Prod.mk.injEq] at h1
    obtain ⟨rfl, rfl⟩ := h1
    refine hroot h2.shape ?_
    rw [h7.inner, if_pos]
    have hlt : t.nextLeafIdx < 2 ^ h' := by have := h2.next; omega
    exact ⟨_, by simp, hmem h2.shape.pos hlt⟩
  · intro id t' x hr
    rcases BeeKem.removeId_cases t id with ⟨_, h2⟩ | ⟨_, _, h2⟩ | ⟨i, h1, h2⟩
    · rw [hr] at h2; simp at h2
    · rw [hr] at h2; simp at h2
    · obtain ⟨t1, B, g1, g2, _, _, g5, g6, g7⟩ := BeeKem.removeId_ok w.toWInv h2 h1
      rw [hr] at g1
      simp only [Except.ok.injEq, Prod.mk.injEq] at g1
      obtain ⟨rfl, _⟩ := g1
      refine hroot g2.shape ?_
      rw [g7.inner, if_pos]
      exact ⟨i, g5, hmem g2.shape.pos (w.lt h2)⟩
  · intro g c id pk sks t' x he
    rcases BeeKem.encryptPath_weak g c w.toWInv id pk sks with ⟨t1, x1, h1, h2, _, _, h5, _⟩ | ⟨h1, _⟩ | ⟨h1, _⟩ | h1
    · rw [he] at h1
      simp only [Except.ok.injEq, Prod.mk.injEq] at h1
      obtain ⟨rfl, rfl⟩ := h1
      rw [BeeKem.hasRootKey_ok h2.shape, h5]
      rfl
    all_goals (rw [he] at h1; simp at h1)

/-- **C05, for whoever wants the secret.** Without a root key nobody gets a secret out of the tree, whatever secrets they hold; in
particular right after an add or a remove, and while updates conflict at the root. -/
theorem C05_no_root_key_no_secret {t : BeeKem} (h : t.hasRootKey = .ok false) (who : MemberId) (sks : ShareKeyMap) :
    t.decryptTreeSecret who sks = .error .noRootKey ∨
    (t.decryptTreeSecret who sks = .error .identifierNotFound ∧ t.containsId who = false ∧ t.containsId MemberId.pub = false) := by
  unfold BeeKem.decryptTreeSecret
  rw [h]
  cases h1 : AMap.get t.idToLeafIdx who with
  | some i => left; simp [BeeKem.leafIndexForId, h1, bind, Except.bind, pure, Except.pure]
  | none =>
    cases h2 : AMap.get t.idToLeafIdx MemberId.pub with
    | some i => left; simp [BeeKem.leafIndexForId, h1, h2, bind, Except.bind, pure, Except.pure]
    | none =>
      right
      simp [BeeKem.leafIndexForId, BeeKem.containsId, AMap.contains, h1, h2, bind, Except.bind]

/-! ## C06: a key update reaches every member -/

theorem rootSecret_of {t : BeeKem} {h : Nat} (hs : BeeKem.Shape t h) {r : Sk}
    (hk : t.keyD h 0 = some (.share ⟨r⟩)) : RootSecret t r := by
  obtain ⟨k, rfl⟩ : ∃ k, h = k + 1 := ⟨h - 1, by have := hs.pos; omega⟩
  cases hx : t.innerD (nodeInner k 0) with
  | none => simp [BeeKem.keyD, hx] at hk
  | some st =>
    have hx' : t.innerNodes[nodeInner k 0]? = some (some st) := by
      unfold BeeKem.innerD at hx
      exact BeeKem.join_some.1 hx
    simp only [BeeKem.keyD, hx] at hk
    have hv : ∃ v, st.versions = [v] ∧ v.pk = ⟨r⟩ := by
      simp only [SecretStore.nodeKey] at hk
      rcases hvv : st.versions with _ | ⟨v, _ | ⟨v2, more⟩⟩
      · simp [hvv, NodeKey.ofSlice, Except.toOption] at hk
      · refine ⟨v, rfl, ?_⟩
        simp [hvv, NodeKey.ofSlice, Except.toOption] at hk
        exact hk
      · simp [hvv, NodeKey.ofSlice, Except.toOption] at hk
    obtain ⟨v, h1, h2⟩ := hv
    exact ⟨_, st, v, by rw [hs.size, BeeKem.root_eq], hx', h1, h2⟩

/-- **C06** (runs without concurrency; merging concurrent updates is not covered here). In every
reachable tree, a key update by any member succeeds, whoever installs the published path on the tree
before the update gets the updater's tree, and every member that holds the secret of its leaf key
decrypts the root secret the updater obtained. -/
theorem C06_update_reaches_everyone_partial {g : BeeKem.Gen} (hf : Fresh g) {w : World} (hw : Reach g w)
    {id : MemberId} (hid : w.tree.containsId id = true) {sk : Sk} {sks : ShareKeyMap}
    (hsk : AMap.get sks ⟨sk⟩ = some sk) :
    ∃ t' sks' rng' r pc, w.tree.encryptPath g w.rng id ⟨sk⟩ sks = .ok (t', sks', rng', r, pc) ∧
      w.tree.applyPath pc = .ok t' ∧ t'.hasRootKey = .ok true ∧ RootSecret t' r ∧
      ∀ i l a keys, LeafAt t' i l → l.pk = .share ⟨a⟩ → HonestKeys keys → AMap.get keys ⟨a⟩ = some a →
        ∃ keys', t'.decryptTreeSecret l.id keys = .ok (keys', r) := by
  have I := BeeKem.secInv_reach hf hw
  obtain ⟨h, sv⟩ := I.sinv
  obtain ⟨i, hi⟩ := BeeKem.contains_get.1 hid
  have hlt := sv.lt hi
  obtain ⟨l, hl, _⟩ := sv.ids id i hi
  obtain ⟨s', newp, ν, h1, R⟩ := BeeKem.encryptPath_ok g w.rng sv.shape I.good.single hlt hi hl hsk
  obtain ⟨sv', good', hL⟩ := BeeKem.encryptPath_inv g w.rng sv I.good hi R
  have hap := BeeKem.applyPath_encrypt sv I.good hi hl R
  have hrk : s'.tree.keyD h 0 = some (.share ⟨s'.childSk⟩) := by
    have := R.rootKey
    simpa [shareKey] using this
  have hroot : s'.tree.skipD h 0 = false := by
    obtain ⟨k, rfl⟩ : ∃ k, h = k + 1 := ⟨h - 1, by have := sv.shape.pos; omega⟩
    cases hx : s'.tree.innerD (nodeInner k 0) with
    | none => simp [BeeKem.keyD, hx] at hrk
    | some st =>
      obtain ⟨j, st', v, e1, e2, e3, _⟩ := rootSecret_of sv'.shape hrk
      rw [sv'.shape.size, BeeKem.root_eq] at e1
      simp only [TreeNodeIndex.inner.injEq] at e1
      subst e1
      unfold BeeKem.innerD at hx
      rw [e2] at hx
      simp only [Option.join_some, Option.some.injEq] at hx
      subst hx
      simp [BeeKem.skipD, BeeKem.innerD, e2, SecretStore.hasConflict, e3]
  refine ⟨_, _, _, _, _, h1, hap, ?_, rootSecret_of sv'.shape hrk, ?_⟩
  · rw [BeeKem.hasRootKey_ok sv'.shape, hroot]; rfl
  · intro j l' a keys hl' ha hkeys hka
    have hl'' := BeeKem.leafAt_iff.1 hl'
    obtain ⟨keys', r', g1, g2, _⟩ := BeeKem.decryptTreeSecret_ok sv'.toWInv good' hroot (sv'.back j l' hl'') hl'' ha
      hkeys hka
    rw [hrk] at g2
    simp only [Option.some.injEq, NodeKey.share.injEq, Pk.mk.injEq] at g2
    subst g2
    exact ⟨keys', g1⟩

/-! ## C07, C08, C58: secrecy -/

theorem present_root {t : BeeKem} {r : Sk} (h : RootSecret t r) : Present t r := by
  obtain ⟨j, st, v, _, h2, h3, h4⟩ := h
  exact Or.inr ⟨j, st, h2, v, by rw [h3]; simp, h4⟩

theorem onPath_has {t : BeeKem} {h i : Nat} (sv : BeeKem.SInv t h) (hi : i < 2 ^ h) {s : Sk}
    (hp : OnPath t i s) : ∃ k m, nodeInner k m ∈ BeeKem.path h i ∧ BeeKem.HasSecret t (k + 1) m s := by
  obtain ⟨p, h1, j, hj, st, h2, v, hv, hvp⟩ := hp
  have h3 := BeeKem.directPathRes_ok sv.shape hi
  unfold BeeKem.directPathRes at h3
  rw [h1] at h3
  simp only [Except.ok.injEq] at h3
  subst h3
  obtain ⟨k, m, rfl⟩ := BeeKem.exists_nodeInner j
  refine ⟨k, m, hj, ?_⟩
  have hj' : t.innerD (nodeInner k m) = some st := by unfold BeeKem.innerD; rw [h2]; rfl
  obtain ⟨nk, e1, e2⟩ := BeeKem.keyD_inner hj' (sv.vers _ _ hj')
  exact ⟨nk, e1, by rw [e2, ← hvp]; exact List.mem_map_of_mem hv⟩

theorem gone_secrecy {g : BeeKem.Gen} (hf : Fresh g) {w0 w1 w3 w4 : World} {i : Nat}
    (I0 : BeeKem.SecInv g w0) (r01 : BeeKem.StepRes g w0 w1)
    (hgone : ∀ s, OnPath w0.tree i s → ¬ Present w1.tree s)
    (h13 : Steps g w1 w3) (h34 : Steps g w3 w4) {K : Sk → Prop}
    (hK : ∀ s, K s → OnPath w0.tree i s ∨ (w0.Held s ∧ ¬ Present w0.tree s ∧ ¬ NotGen g s) ∨
      (NotGen g s ∧ ¬ Present w3.tree s)) {r : Sk} (hr : RootSecret w3.tree r) :
    ¬ Derivable K w4.pub r := by
  have r13 := BeeKem.steps_res hf r01.inv h13
  have r34 := BeeKem.steps_res hf r13.inv h34
  obtain ⟨h, sv⟩ := I0.sinv
  have hon : ∀ s, OnPath w0.tree i s → Present w0.tree s := by
    rintro s ⟨p, _, j, _, st, h2, v, hv, hvp⟩
    exact Or.inr ⟨j, st, h2, v, hv, hvp⟩
  intro hd
  refine (BeeKem.secrecy hf r13.inv h34 ?_ hd).1 (present_root hr)
  intro s hs
  have old : ∀ n, s = g n → n < w0.rng → ¬ Present w1.tree s → w0.Held s →
      ¬ Present w3.tree s ∧ (w4.Held s ∨ NotGen g s) := by
    intro n e hn hp hh
    subst e
    exact ⟨fun hp3 => hp (r13.presentOld n (Nat.lt_of_lt_of_le hn r01.rng) hp3),
      Or.inl (r34.heldMono _ (r13.heldMono _ (r01.heldMono _ hh)))⟩
  rcases hK s hs with h1 | ⟨h1, h2, h3⟩ | ⟨h1, h2⟩
  · have hh : w0.Held s := ⟨w0.tree, I0.tree, hon s h1⟩
    by_cases hng : NotGen g s
    · refine ⟨?_, Or.inr hng⟩
      exfalso
      obtain ⟨p, e1, j, hj, st, e2, v, hv, hvp⟩ := h1
      obtain ⟨k, m, rfl⟩ := BeeKem.exists_nodeInner j
      have hj' : w0.tree.innerD (nodeInner k m) = some st := by unfold BeeKem.innerD; rw [e2]; rfl
      obtain ⟨nk, f1, f2⟩ := BeeKem.keyD_inner hj' (sv.vers _ _ hj')
      obtain ⟨n, _, hn⟩ := I0.inner k m s ⟨nk, f1, by rw [f2, ← hvp]; exact List.mem_map_of_mem hv⟩
      exact hng n hn
    · simp only [NotGen, not_forall, not_not] at hng
      obtain ⟨n, rfl⟩ := hng
      exact old n rfl (I0.held n hh) (hgone _ h1) hh
  · simp only [NotGen, not_forall, not_not] at h3
    obtain ⟨n, rfl⟩ := h3
    have hn := I0.held n h1
    exact old n rfl hn (fun hp => h2 (r01.presentOld n hn hp)) h1
  · exact ⟨h2, Or.inr h1⟩

/-- **C07.** Member `id` is removed (`w0 → w1`); the run goes on arbitrarily to `w3` and further to
`w4`. Whoever knows only (a) every secret on the path of the removed member at the time of the
removal, (b) every tree secret that had been replaced before, and (c) leaf secrets that are not leaf
keys of the tree at `w3` — in particular the removed member's — together with everything ever
published up to `w4`, cannot derive the root secret of `w3`. Missing: runs in which concurrent
operations are merged (false there, see `C10_fails_for_concurrent_adds`). -/
theorem C07_removed_member_cut_off_partial {g : BeeKem.Gen} (hf : Fresh g) {w0 w1 w3 w4 : World} (hw : Reach g w0)
    {id : MemberId} {t : BeeKem} {i : Nat} {removed : List Pk}
    (hrem : w0.tree.removeId id = .ok (t, i, removed))
    (hw1 : w1 = { w0 with tree := t, trees := t :: w0.trees })
    (h13 : Steps g w1 w3) (h34 : Steps g w3 w4) {K : Sk → Prop}
    (hK : ∀ s, K s → OnPath w0.tree i s ∨ (w0.Held s ∧ ¬ Present w0.tree s ∧ ¬ NotGen g s) ∨
      (NotGen g s ∧ ¬ Present w3.tree s)) {r : Sk} (hr : RootSecret w3.tree r) :
    ¬ Derivable K w4.pub r := by
  have I0 := BeeKem.secInv_reach hf hw
  obtain ⟨h, sv⟩ := I0.sinv
  have hst : Step g w0 w1 := hw1 ▸ Step.remove hrem
  obtain ⟨hid, hg⟩ := BeeKem.remove_path_gone I0 sv hrem
  refine gone_secrecy hf I0 (BeeKem.step_res hf I0 hst) ?_ h13 h34 hK hr
  intro s hs
  obtain ⟨k, m, h1, h2⟩ := onPath_has sv (sv.lt hid) hs
  rw [hw1]
  exact hg k m s h1 h2

/-- **C08.** Member `id` at leaf `i` performs a key update with leaf secret `sk` (`w0 → w1`). Whoever
knew every secret on its path before, every tree secret replaced earlier, and any leaf secrets not in
the tree at `w3` — in particular the old leaf secret — cannot derive the root secret of `w1` or of any
later `w3` from everything published up to any `w4`. Missing: runs in which concurrent operations are
merged. -/
theorem C08_update_heals_partial {g : BeeKem.Gen} (hf : Fresh g) {w0 w1 w3 w4 : World} (hw : Reach g w0)
    {id : MemberId} {i : Nat} (hi : w0.tree.leafIndexForId id = .ok i)
    {sk : Sk} {sks sks' : ShareKeyMap} {t : BeeKem} {rng : Nat} {r1 : Sk} {pc : PathChange}
    (hng : NotGen g sk) (hsk : AMap.get sks ⟨sk⟩ = some sk)
    (hupd : w0.tree.encryptPath g w0.rng id ⟨sk⟩ sks = .ok (t, sks', rng, r1, pc))
    (hw1 : w1 = { tree := t, rng, pub := PathChange.ciphers pc ++ w0.pub, trees := t :: w0.trees })
    (h13 : Steps g w1 w3) (h34 : Steps g w3 w4) {K : Sk → Prop}
    (hK : ∀ s, K s → OnPath w0.tree i s ∨ (w0.Held s ∧ ¬ Present w0.tree s ∧ ¬ NotGen g s) ∨
      (NotGen g s ∧ ¬ Present w3.tree s)) {r : Sk} (hr : RootSecret w3.tree r) :
    ¬ Derivable K w4.pub r := by
  have I0 := BeeKem.secInv_reach hf hw
  obtain ⟨h, sv⟩ := I0.sinv
  have hst : Step g w0 w1 := hw1 ▸ Step.update hng hsk hupd
  have hid : AMap.get w0.tree.idToLeafIdx id = some i := by
    unfold BeeKem.leafIndexForId at hi
    cases hx : AMap.get w0.tree.idToLeafIdx id with
    | none => rw [hx] at hi; simp at hi
    | some j => rw [hx] at hi; simp only [Except.ok.injEq] at hi; rw [hi]
  refine gone_secrecy hf I0 (BeeKem.step_res hf I0 hst) ?_ h13 h34 hK hr
  intro s hs
  obtain ⟨k, m, h1, h2⟩ := onPath_has sv (sv.lt hid) hs
  rw [hw1]
  exact BeeKem.update_path_gone hf I0 sv hid hng hsk hupd k m s h1 h2

/-- **C58.** A member joins with leaf secret `sk` (`w0 → w1`), the run goes on arbitrarily to `w2`.
From `sk`, any other leaf secrets that were not in the tree before the join, every tree secret
generated after the join and everything ever published (before and after the join), the root secret
in force before the join cannot be derived. Missing: runs in which concurrent operations are merged. -/
theorem C58_no_access_before_join_partial {g : BeeKem.Gen} (hf : Fresh g) {w0 w1 w2 : World} (hw : Reach g w0)
    {id : MemberId} {sk : Sk} {t : BeeKem} {i : Nat} (hid : w0.tree.containsId id = false)
    (hng : NotGen g sk) (hadd : w0.tree.pushLeaf id (.share ⟨sk⟩) = .ok (t, i))
    (hw1 : w1 = { w0 with tree := t, trees := t :: w0.trees }) (h12 : Steps g w1 w2)
    (hfresh : ¬ Present w0.tree sk) {K : Sk → Prop}
    (hK : ∀ s, K s → s = sk ∨ (NotGen g s ∧ ¬ Present w0.tree s) ∨
      (∃ n, w0.rng ≤ n ∧ s = g n ∧ w2.Held s)) {r : Sk} (hr : RootSecret w0.tree r) :
    ¬ Derivable K w2.pub r := by
  have I0 := BeeKem.secInv_reach hf hw
  have hst : Step g w0 w1 := hw1 ▸ Step.add hid hng hadd
  have h02 : Steps g w0 w2 := by
    clear hK
    induction h12 with
    | refl => exact Steps.tail Steps.refl hst
    | tail _ h ih => exact Steps.tail ih h
  intro hd
  refine (BeeKem.secrecy hf I0 h02 ?_ hd).1 (present_root hr)
  intro s hs
  rcases hK s hs with rfl | ⟨h1, h2⟩ | ⟨n, h1, rfl, h3⟩
  · exact ⟨hfresh, Or.inr hng⟩
  · exact ⟨h2, Or.inr h1⟩
  · refine ⟨?_, Or.inl h3⟩
    intro hp
    have := I0.held n ⟨w0.tree, I0.tree, hp⟩
    omega


/-! ## C09: concurrent changes keep every key -/

theorem filter_filter_keys (l : List Pk) (p q : List Pk) :
    (l.filter (fun k => decide (k ∉ p))).filter (fun k => decide (k ∉ q)) =
      l.filter (fun k => decide (k ∉ p ++ q)) := by
  rw [List.filter_filter]
  congr 1
  funext k
  by_cases h1 : k ∈ p <;> by_cases h2 : k ∈ q <;> simp [h1, h2]

/-- **C09, one merge.** The merged node has exactly the incoming keys and the old keys that the
incoming change did not declare removed. -/
theorem C09_merge_exact (a b : NodeKey) (removed : List Pk) :
    ∃ nk, a.merge b removed = .ok nk ∧
      (∀ k, k ∈ nk.keys ↔ k ∈ b.keys ∨ (k ∈ a.keys ∧ k ∉ removed)) ∧
      nk.keys.length = b.keys.length + (a.keys.filter (fun k => decide (k ∉ removed))).length := by
  obtain ⟨nk, h1, h2⟩ := merge_keys a b removed
  refine ⟨nk, h1, ?_, by rw [h2.length_eq, List.length_append]⟩
  intro k
  rw [h2.mem_iff]
  simp

/-- **C09, use of a merged node.** Whichever of the keys of the node below made an encryption, its secret opens it: no key of a
conflict is lost for decryption. -/
theorem C09_every_key_opens (childKey : NodeKey) (encSk plain : Sk) (paired : Pk) (pk : Pk)
    (hk : shareKey encSk ∈ childKey.keys) (sks : ShareKeyMap) (hs : AMap.get sks (shareKey encSk) = some encSk)
    (i : TreeNodeIndex) (seen : List TreeNodeIndex) (hi : i ∈ seen) :
    SecretStoreVersion.decryptSecret ⟨pk, [(i, encryptSecret plain encSk paired)], shareKey encSk⟩ childKey sks seen =
      .ok plain := by
  have h1 : lookupIdx [(i, encryptSecret plain encSk paired)] seen.reverse = some i := by
    unfold lookupIdx
    cases hf : seen.reverse.find? (fun j => AMap.contains [(i, encryptSecret plain encSk paired)] j) with
    | none =>
      have := List.find?_eq_none.1 hf i (by simpa using hi)
      simp [AMap.contains, AMap.get] at this
    | some j =>
      have := List.find?_some hf
      simp only [AMap.contains, AMap.get] at this
      split at this
      · rename_i h; rw [h]
      · simp at this
  have h2 : childKey.containsKey (shareKey encSk) = true := by
    cases childKey with
    | share k => simpa [NodeKey.containsKey, NodeKey.keys] using hk
    | conflict a b more =>
      simp only [NodeKey.keys, List.cons_append, List.nil_append, List.mem_cons] at hk
      simp only [NodeKey.containsKey, Bool.or_eq_true, decide_eq_true_eq]
      rcases hk with h | h | h
      · exact .inl (.inl h.symm)
      · exact .inl (.inr h.symm)
      · exact .inr h
  unfold SecretStoreVersion.decryptSecret
  simp only [h1]
  simp only [AMap.get, if_true, h2, hs]
  simp [tryEncrypterDecrypt, encryptSecret, tryDecrypt]

example : SecretStoreVersion.decryptSecret ⟨⟨9⟩, [(.leaf 0, encryptSecret 9 4 ⟨5⟩)], ⟨4⟩⟩ (.conflict ⟨3⟩ ⟨4⟩ [⟨6⟩]) [(⟨4⟩, 4)]
    [.leaf 0, .inner 0] = .ok 9 := by decide +kernel

theorem mergeAll_keys (cs : List (NodeKey × List Pk)) (hc : Concurrent NodeKey.keys cs) (a : NodeKey) :
    ∃ nk, mergeAll a cs = .ok nk ∧
      nk.keys.Perm (cs.flatMap (fun c => c.1.keys) ++ a.keys.filter (fun k => decide (k ∉ cs.flatMap (·.2)))) := by
  induction cs generalizing a with
  | nil => exact ⟨a, rfl, by simp [List.filter_eq_self.2]⟩
  | cons c cs ih =>
    obtain ⟨n1, h1, h2⟩ := merge_keys a c.1 c.2
    obtain ⟨n2, h3, h4⟩ := ih (fun x hx y hy => hc x (List.mem_cons_of_mem _ hx) y (List.mem_cons_of_mem _ hy)) n1
    refine ⟨n2, by simp [mergeAll, h1, h3, bind, Except.bind], h4.trans ?_⟩
    have e1 : (n1.keys.filter (fun k => decide (k ∉ cs.flatMap (·.2)))).Perm
        (c.1.keys ++ a.keys.filter (fun k => decide (k ∉ c.2 ++ cs.flatMap (·.2)))) := by
      refine (h2.filter _).trans ?_
      rw [List.filter_append, filter_filter_keys]
      have : c.1.keys.filter (fun k => decide (k ∉ cs.flatMap (·.2))) = c.1.keys := by
        rw [List.filter_eq_self]
        intro k hk
        simp only [decide_eq_true_eq, List.mem_flatMap, not_exists, not_and]
        intro d hd
        exact hc c (by simp) d (List.mem_cons_of_mem _ hd) k hk
      rw [this]
    refine (e1.append_left _).trans ?_
    simp only [List.flatMap_cons]
    rw [← List.append_assoc]
    exact List.Perm.append_right _ List.perm_append_comm

theorem mergeAll_sorted (cs : List (Pk × List Pk)) (hne : cs ≠ []) (a : NodeKey) {nk : NodeKey}
    (h : mergeAll a (cs.map (fun c => (.share c.1, c.2))) = .ok nk) : ∃ l, NodeKey.ofSlice (sortKeys l) = .ok nk := by
  induction cs generalizing a with
  | nil => exact absurd rfl hne
  | cons c cs ih =>
    simp only [List.map_cons, mergeAll, bind, Except.bind] at h
    cases hm : a.merge (.share c.1) c.2 with
    | error e => rw [hm] at h; simp at h
    | ok n1 =>
      rw [hm] at h
      simp only at h
      by_cases he : cs = []
      · subst he
        simp only [List.map_nil, mergeAll, Except.ok.injEq] at h
        subst h
        rw [merge_share] at hm
        exact ⟨_, hm⟩
      · exact ih he n1 h

theorem ofSlice_keys {l : List Pk} {nk : NodeKey} (h : NodeKey.ofSlice l = .ok nk) : nk.keys = l := by
  rcases l with _ | ⟨a, _ | ⟨b, more⟩⟩
  · simp [NodeKey.ofSlice] at h
  · simp only [NodeKey.ofSlice, Except.ok.injEq] at h; subst h; rfl
  · simp only [NodeKey.ofSlice, Except.ok.injEq] at h; subst h; rfl

/-- **C09.** Merging any number of concurrent single-key changes, in any two orders, gives the very
same node key. -/
theorem C09_merge_order_independent (a : NodeKey) (cs ds : List (Pk × List Pk)) (hp : cs.Perm ds)
    (hc : Concurrent (fun k => [k]) cs) :
    mergeAll a (cs.map (fun c => (.share c.1, c.2))) = mergeAll a (ds.map (fun c => (.share c.1, c.2))) := by
  by_cases hne : cs = []
  · subst hne
    rw [List.nil_perm.1 hp]
  · have hne' : ds ≠ [] := by
      rintro rfl
      exact hne (List.perm_nil.1 hp)
    have hc1 : Concurrent NodeKey.keys (cs.map (fun c => (NodeKey.share c.1, c.2))) := by
      intro c hc' d hd k hk
      simp only [List.mem_map] at hc' hd
      obtain ⟨c', hc', rfl⟩ := hc'
      obtain ⟨d', hd', rfl⟩ := hd
      exact hc c' hc' d' hd' k hk
    have hpm : (cs.map (fun c => (NodeKey.share c.1, c.2))).Perm (ds.map (fun c => (NodeKey.share c.1, c.2))) := hp.map _
    have hc2 : Concurrent NodeKey.keys (ds.map (fun c => (NodeKey.share c.1, c.2))) := by
      intro c hc' d hd
      exact hc1 c (hpm.mem_iff.2 hc') d (hpm.mem_iff.2 hd)
    obtain ⟨n1, h1, h2⟩ := mergeAll_keys _ hc1 a
    obtain ⟨n2, h3, h4⟩ := mergeAll_keys _ hc2 a
    have hk : n1.keys.Perm n2.keys := by
      refine h2.trans (List.Perm.trans ?_ h4.symm)
      refine List.Perm.append (hpm.flatMap_right _) ?_
      have hmem : ∀ k, k ∈ (cs.map (fun c => (NodeKey.share c.1, c.2))).flatMap (·.2) ↔
          k ∈ (ds.map (fun c => (NodeKey.share c.1, c.2))).flatMap (·.2) :=
        fun k => (hpm.flatMap_right _).mem_iff
      rw [show (fun k => decide (k ∉ (cs.map (fun c => (NodeKey.share c.1, c.2))).flatMap (·.2))) =
        (fun k => decide (k ∉ (ds.map (fun c => (NodeKey.share c.1, c.2))).flatMap (·.2))) from by
          funext k; simp only [hmem k]]
    obtain ⟨l1, e1⟩ := mergeAll_sorted cs hne a h1
    obtain ⟨l2, e2⟩ := mergeAll_sorted ds hne' a h3
    have f1 := ofSlice_keys e1
    have f2 := ofSlice_keys e2
    rw [h1, h3, ← e1, ← e2]
    congr 1
    have : l1.Perm l2 := by
      refine (sortKeys_perm l1).symm.trans (List.Perm.trans ?_ (sortKeys_perm l2))
      rw [← f1, ← f2]
      exact hk
    exact sortKeys_eq_of_perm this

/-- **C09 for inner nodes.** Merging concurrent changes into the secret store of an inner node keeps
exactly the incoming versions and the old versions whose key no change declared removed — in any
order of merging, up to the order in which the versions are listed. -/
theorem C09_stores_exact (a : SecretStore) (cs : List (SecretStore × List Pk))
    (hc : Concurrent storeKeys cs) :
    (mergeStores a cs).versions.Perm
      (cs.flatMap (fun c => c.1.versions) ++ a.versions.filter (fun v => decide (v.pk ∉ cs.flatMap (·.2)))) := by
  induction cs generalizing a with
  | nil => simp [mergeStores, List.filter_eq_self.2]
  | cons c cs ih =>
    have h := ih (a.merge c.1 c.2) (fun x hx y hy => hc x (List.mem_cons_of_mem _ hx) y (List.mem_cons_of_mem _ hy))
    refine h.trans ?_
    have hkeep : c.1.versions.filter (fun v => decide (v.pk ∉ cs.flatMap (·.2))) = c.1.versions := by
      rw [List.filter_eq_self]
      intro v hv
      simp only [decide_eq_true_eq, List.mem_flatMap, not_exists, not_and]
      intro d hd
      exact hc c (by simp) d (List.mem_cons_of_mem _ hd) v.pk (List.mem_map_of_mem hv)
    have hff : (a.versions.filter (fun v => decide (v.pk ∉ c.2))).filter (fun v => decide (v.pk ∉ cs.flatMap (·.2))) =
        a.versions.filter (fun v => decide (v.pk ∉ c.2 ++ cs.flatMap (·.2))) := by
      rw [List.filter_filter]
      congr 1
      funext v
      by_cases h1 : v.pk ∈ c.2 <;> by_cases h2 : v.pk ∈ cs.flatMap (·.2) <;> simp_all
    simp only [SecretStore.merge, SecretStore.removeKeysFrom, List.filter_append, hkeep, hff,
      List.flatMap_cons]
    refine (List.Perm.append_left _ List.perm_append_comm).trans ?_
    rw [← List.append_assoc]
    exact List.Perm.append_right _ List.perm_append_comm

/-! ## C10: removing a member removes all its leaves -/

/-- **C10** (without concurrent adds of the same identity; with them it is false, see
`C10_fails_for_concurrent_adds`). After a removal no leaf carries the identity. -/
theorem C10_remove_removes_all_leaves_partial {t : BeeKem} {ms : List MemberId} (H : History t ms)
    {id : MemberId} {t' : BeeKem} {i : Nat} {removed : List Pk} (hr : t.removeId id = .ok (t', i, removed)) :
    t'.containsId id = false ∧ ∀ j l, LeafAt t' j l → l.id ≠ id := by
  obtain ⟨⟨h, w⟩, hk⟩ := BeeKem.history_inv H
  rcases BeeKem.removeId_cases t id with ⟨_, h2⟩ | ⟨_, _, h2⟩ | ⟨i', h1, h2⟩
  · rw [hr] at h2; simp at h2
  · rw [hr] at h2; simp at h2
  · obtain ⟨t1, B, g1, g2, g3, g4, _⟩ := BeeKem.removeId_ok w.toWInv h2 h1
    rw [hr] at g1
    simp only [Except.ok.injEq, Prod.mk.injEq] at g1
    obtain ⟨rfl, rfl, rfl⟩ := g1
    have w' := BeeKem.removeId_strong w h2 g2 g3 g4
    have hno : AMap.get t'.idToLeafIdx id = none := by rw [g3, AMap.get_erase]; simp
    refine ⟨BeeKem.contains_false.2 hno, ?_⟩
    intro j l hl he
    have := w'.back j l (BeeKem.leafAt_iff.1 hl)
    rw [he, hno] at this
    simp at this

/-- The tree work of one epoch with two concurrent adds of the same identity — cgka.rs:459-476: both
`Add` arms push a leaf, then the leaves are sorted. -/
def concurrentAdds (t : BeeKem) (id : MemberId) (pk1 pk2 : Pk) : Res BeeKem := do
  let (t1, _) ← t.pushLeaf id (.share pk1)
  let (t2, _) ← t1.pushLeaf id (.share pk2)
  t2.sortLeavesAndBlankPaths [id] []

/-- **C10 fails** when two peers add the same identity concurrently: the removal succeeds, the tree no
longer reports the identity as a member, but a leaf with its key is still there, and the next key
update encrypts the new root secret to it. -/
theorem C10_fails_for_concurrent_adds :
    ∃ (t0 t1 t2 : BeeKem) (x : Nat × List Pk), History t0 [1] ∧
      concurrentAdds t0 7 ⟨20⟩ ⟨22⟩ = .ok t1 ∧ t1.removeId 7 = .ok (t2, x) ∧
      t2.containsId 7 = false ∧ LeafAt t2 1 ⟨7, .share ⟨20⟩⟩ ∧
      ∃ t3 sks rng r pc, t2.encryptPath (fun n => 2 * n + 1) 0 1 ⟨4⟩ [(⟨4⟩, 4)] = .ok (t3, sks, rng, r, pc) ∧
        RootSecret t3 r ∧ Derivable (fun s => s = 20) (PathChange.ciphers pc) r := by
  refine ⟨⟨1, [some ⟨1, .share ⟨2⟩⟩, none], [none], 3, [(1, 0)]⟩,
    ⟨3, [some ⟨1, .share ⟨2⟩⟩, some ⟨7, .share ⟨20⟩⟩, some ⟨7, .share ⟨22⟩⟩, none], [none, none, none], 7, [(7, 2), (1, 0)]⟩,
    ⟨2, [some ⟨1, .share ⟨2⟩⟩, some ⟨7, .share ⟨20⟩⟩, none, none], [none, none, none], 7, [(1, 0)]⟩,
    (2, []), History.start (pk := ⟨2⟩) (by decide +kernel), by decide +kernel, by decide +kernel,
    by decide +kernel, by unfold LeafAt; decide +kernel, ?_⟩
  refine ⟨⟨2, [some ⟨1, .share ⟨4⟩⟩, some ⟨7, .share ⟨20⟩⟩, none, none],
      [some ⟨[⟨⟨1⟩, [(.leaf 1, ⟨⟨4, 20⟩, 1, ⟨20⟩⟩), (.leaf 0, ⟨⟨4, 20⟩, 1, ⟨20⟩⟩)], ⟨4⟩⟩]⟩,
       some ⟨[⟨⟨3⟩, [(.inner 0, ⟨⟨1, 5⟩, 3, ⟨5⟩⟩)], ⟨1⟩⟩]⟩, none], 7, [(1, 0)]⟩,
    [(⟨3⟩, 3), (⟨1⟩, 1), (⟨4⟩, 4)], 3, 3,
    ⟨1, 0, .share ⟨4⟩, [(0, ⟨[⟨⟨1⟩, [(.leaf 1, ⟨⟨4, 20⟩, 1, ⟨20⟩⟩), (.leaf 0, ⟨⟨4, 20⟩, 1, ⟨20⟩⟩)], ⟨4⟩⟩]⟩),
      (1, ⟨[⟨⟨3⟩, [(.inner 0, ⟨⟨1, 5⟩, 3, ⟨5⟩⟩)], ⟨1⟩⟩]⟩)], [⟨2⟩]⟩, by decide +kernel, ?_, ?_⟩
  · exact ⟨1, _, _, by decide +kernel, rfl, rfl, rfl⟩
  · have h1 : Derivable (fun s => s = 20) (PathChange.ciphers
      ⟨1, 0, .share ⟨4⟩, [(0, ⟨[⟨⟨1⟩, [(.leaf 1, ⟨⟨4, 20⟩, 1, ⟨20⟩⟩), (.leaf 0, ⟨⟨4, 20⟩, 1, ⟨20⟩⟩)], ⟨4⟩⟩]⟩),
      (1, ⟨[⟨⟨3⟩, [(.inner 0, ⟨⟨1, 5⟩, 3, ⟨5⟩⟩)], ⟨1⟩⟩]⟩)], [⟨2⟩]⟩) 1 :=
      Derivable.opened (c := ⟨⟨4, 20⟩, 1, ⟨20⟩⟩) (a := 20) (b := ⟨4⟩) (by decide +kernel) (.known rfl) rfl
    exact Derivable.opened (c := ⟨⟨1, 5⟩, 3, ⟨5⟩⟩) (a := 1) (b := ⟨5⟩) (by decide +kernel) h1 rfl

/-! ## The hypotheses are met by concrete, non-trivial cases -/

namespace Sample

/-- CSPRNG outputs are odd, leaf secrets even. -/
def gen : BeeKem.Gen := fun n => 2 * n + 1

theorem gen_fresh : Fresh gen := by
  intro m n h
  have : 2 * m + 1 = 2 * n + 1 := h
  omega

theorem notGen {s : Nat} (h : s % 2 = 0) : NotGen gen s := by
  intro n hn
  have : s = 2 * n + 1 := hn
  omega

def get {α : Type} (d : α) : Res α → α
  | .ok x => x
  | .error _ => d

def none0 : BeeKem := ⟨0, [], [], 0, []⟩

def rootB (t : BeeKem) (s : Sk) : Bool :=
  match root t.treeSize with
  | .leaf _ => false
  | .inner j =>
    match t.innerNodes[j]? with
    | some (some st) => decide (st.versions.map (·.pk) = [⟨s⟩])
    | _ => false

theorem rootB_ok {t : BeeKem} {s : Sk} (h : rootB t s = true) : RootSecret t s := by
  unfold rootB at h
  split at h
  · simp at h
  · rename_i j hj
    split at h
    · rename_i st hst
      simp only [decide_eq_true_eq] at h
      rcases hv : st.versions with _ | ⟨v, _ | ⟨v2, more⟩⟩
      · simp [hv] at h
      · simp only [hv, List.map_cons, List.map_nil, List.cons.injEq, and_true] at h
        exact ⟨j, st, v, hj, hst, hv, h⟩
      · simp [hv] at h
    · simp at h

def absentB (t : BeeKem) (s : Sk) : Bool :=
  t.leaves.all (fun o => match o with | none => true | some l => decide ((⟨s⟩ : Pk) ∉ l.pk.keys)) &&
  t.innerNodes.all (fun o => match o with | none => true | some st => decide ((⟨s⟩ : Pk) ∉ st.versions.map (·.pk)))

theorem absentB_ok {t : BeeKem} {s : Sk} (h : absentB t s = true) : ¬ Present t s := by
  simp only [absentB, Bool.and_eq_true, List.all_eq_true] at h
  rintro (⟨i, l, h1, h2⟩ | ⟨j, st, h1, v, h2, h3⟩)
  · have := h.1 _ (List.mem_of_getElem? h1)
    simp only [decide_eq_true_eq] at this
    exact this h2
  · have := h.2 _ (List.mem_of_getElem? h1)
    simp only [decide_eq_true_eq] at this
    exact this (by rw [← h3]; exact List.mem_map_of_mem h2)

/-- Alice (1) creates the group, adds Bob (2), Carol (3); Alice updates; Bob is removed; Carol
updates; Dave (4) is added; Alice updates. -/
def t0 : BeeKem := get none0 (BeeKem.new 1 ⟨2⟩)
def t1 : BeeKem := (get (none0, 0) (t0.pushLeaf 2 (.share ⟨4⟩))).1
def t2 : BeeKem := (get (none0, 0) (t1.pushLeaf 3 (.share ⟨6⟩))).1
def e3 := get (none0, [], 0, 0, ⟨0, 0, .share ⟨0⟩, [], []⟩) (t2.encryptPath gen 0 1 ⟨8⟩ [(⟨8⟩, 8)])
def r4 := get (none0, 0, []) (e3.1.removeId 2)
def e5 := get (none0, [], 0, 0, ⟨0, 0, .share ⟨0⟩, [], []⟩) (r4.1.encryptPath gen e3.2.2.1 3 ⟨10⟩ [(⟨10⟩, 10)])
def t6 := get (none0, 0) (e5.1.pushLeaf 4 (.share ⟨12⟩))
def e7 := get (none0, [], 0, 0, ⟨0, 0, .share ⟨0⟩, [], []⟩) (t6.1.encryptPath gen e5.2.2.1 1 ⟨14⟩ [(⟨14⟩, 14)])

def w0 : World := ⟨t0, 0, [], [t0]⟩
def w1 : World := ⟨t1, 0, [], [t1, t0]⟩
def w2 : World := ⟨t2, 0, [], [t2, t1, t0]⟩
def w3 : World := ⟨e3.1, e3.2.2.1, PathChange.ciphers e3.2.2.2.2, [e3.1, t2, t1, t0]⟩
def w4 : World := { w3 with tree := r4.1, trees := r4.1 :: w3.trees }
def w5 : World := ⟨e5.1, e5.2.2.1, PathChange.ciphers e5.2.2.2.2 ++ w4.pub, e5.1 :: w4.trees⟩
def w6 : World := { w5 with tree := t6.1, trees := t6.1 :: w5.trees }
def w7 : World := ⟨e7.1, e7.2.2.1, PathChange.ciphers e7.2.2.2.2 ++ w6.pub, e7.1 :: w6.trees⟩

theorem reach2 : Reach gen w2 := by
  have h0 : Reach gen w0 := .start (.mk (notGen (by decide : 2 % 2 = 0)) (id := 1) (by decide +kernel))
  have h1 : Reach gen w1 := .step h0 (.add (id := 2) (sk := 4) (i := 1) (by decide +kernel) (notGen rfl) (by decide +kernel))
  exact .step h1 (.add (id := 3) (sk := 6) (i := 2) (by decide +kernel) (notGen rfl) (by decide +kernel))

theorem upd3 : w2.tree.encryptPath gen w2.rng 1 ⟨8⟩ [(⟨8⟩, 8)] = .ok e3 := by decide +kernel
theorem rem4 : w3.tree.removeId 2 = .ok r4 := by decide +kernel
theorem upd5 : w4.tree.encryptPath gen w4.rng 3 ⟨10⟩ [(⟨10⟩, 10)] = .ok e5 := by decide +kernel
theorem add6 : w5.tree.pushLeaf 4 (.share ⟨12⟩) = .ok t6 := by decide +kernel
theorem upd7 : w6.tree.encryptPath gen w6.rng 1 ⟨14⟩ [(⟨14⟩, 14)] = .ok e7 := by decide +kernel

theorem step3 : Step gen w2 w3 := by
  have h : w3 = ⟨e3.1, e3.2.2.1, PathChange.ciphers e3.2.2.2.2 ++ w2.pub, e3.1 :: w2.trees⟩ := by
    simp only [w3, w2, List.append_nil]
  rw [h]
  exact Step.update (g := gen) (w := w2) (notGen (s := 8) rfl) (by decide) upd3
theorem step4 : Step gen w3 w4 := Step.remove (w := w3) (t := r4.1) (i := r4.2.1) (removed := r4.2.2) rem4
theorem step5 : Step gen w4 w5 := Step.update (g := gen) (w := w4) (notGen (s := 10) rfl) (by decide) upd5
theorem step6 : Step gen w5 w6 := Step.add (g := gen) (w := w5) (t := t6.1) (i := t6.2) (by decide +kernel) (notGen (s := 12) rfl) add6
theorem step7 : Step gen w6 w7 := Step.update (g := gen) (w := w6) (notGen (s := 14) rfl) (by decide) upd7

theorem reach3 : Reach gen w3 := .step reach2 step3

/-- Histories with several members exist, and tree operations succeed in them (C04, C05, C10). -/
example : History t2 [3, 2, 1] ∧ t2.memberCount = 3 ∧ LeafAt t2 2 ⟨3, .share ⟨6⟩⟩ ∧
    t2.removeId 2 = .ok (get (none0, 0, []) (t2.removeId 2)) ∧
    t2.hasRootKey = .ok false ∧ e3.1.hasRootKey = .ok true := by
  refine ⟨?_, by decide +kernel, by unfold LeafAt; decide +kernel, by decide +kernel, by decide +kernel, by decide +kernel⟩
  have h0 : History t0 [1] := .start (pk := ⟨2⟩) (by decide +kernel)
  have h1 : History t1 [2, 1] := .step (.add 2 (.share ⟨4⟩)) h0 trivial (by decide +kernel)
  exact .step (.add 3 (.share ⟨6⟩)) h1 trivial (by decide +kernel)

/-- **C04, limits.** Nothing in `apply_path` checks a received path change: a change that names an inner
node outside the tree panics, and one that names a leaf outside the tree never returns (the model
gives up after more steps than the tree has nodes). -/
theorem C04_fails_for_hostile_paths : History t0 [1] ∧
    t0.applyPath ⟨1, 0, .share ⟨4⟩, [(5, ⟨[]⟩)], []⟩ = .error (.panic "Inner node index should be in bounds") ∧
    t0.applyPath ⟨1, 9, .share ⟨4⟩, [], []⟩ = .error .diverge :=
  ⟨.start (pk := ⟨2⟩) (by decide +kernel), by decide +kernel, by decide +kernel⟩

/-- **C06, limits.** If the same identity makes two updates concurrently (from two devices, say), its
leaf has two keys afterwards and the next update by anyone else panics. -/
theorem C06_fails_for_conflicting_leaf : ∃ (x y : BeeKem × ShareKeyMap × Nat × Sk × PathChange) (ta tb : BeeKem),
    History t1 [2, 1] ∧ t1.encryptPath gen 0 2 ⟨10⟩ [(⟨10⟩, 10)] = .ok x ∧
    t1.encryptPath gen 5 2 ⟨12⟩ [(⟨12⟩, 12)] = .ok y ∧
    t1.applyPath x.2.2.2.2 = .ok ta ∧ ta.applyPath y.2.2.2.2 = .ok tb ∧
    tb.encryptPath gen 10 1 ⟨14⟩ [(⟨14⟩, 14)] =
      .error (.panic "Sibling resolution nodes should have exactly one ShareKey") := by
  refine ⟨get (none0, [], 0, 0, ⟨0, 0, .share ⟨0⟩, [], []⟩) (t1.encryptPath gen 0 2 ⟨10⟩ [(⟨10⟩, 10)]),
    get (none0, [], 0, 0, ⟨0, 0, .share ⟨0⟩, [], []⟩) (t1.encryptPath gen 5 2 ⟨12⟩ [(⟨12⟩, 12)]),
    get none0 (t1.applyPath (get (none0, [], 0, 0, ⟨0, 0, .share ⟨0⟩, [], []⟩) (t1.encryptPath gen 0 2 ⟨10⟩ [(⟨10⟩, 10)])).2.2.2.2),
    get none0 ((get none0 (t1.applyPath (get (none0, [], 0, 0, ⟨0, 0, .share ⟨0⟩, [], []⟩) (t1.encryptPath gen 0 2 ⟨10⟩ [(⟨10⟩, 10)])).2.2.2.2)).applyPath
      (get (none0, [], 0, 0, ⟨0, 0, .share ⟨0⟩, [], []⟩) (t1.encryptPath gen 5 2 ⟨12⟩ [(⟨12⟩, 12)])).2.2.2.2),
    ?_, by decide +kernel, by decide +kernel, by decide +kernel, by decide +kernel, by decide +kernel⟩
  have h0 : History t0 [1] := .start (pk := ⟨2⟩) (by decide +kernel)
  exact .step (.add 2 (.share ⟨4⟩)) h0 trivial (by decide +kernel)

/-- C06 applies to an update in a group of three, and Carol does decrypt the secret. -/
example : Reach gen w2 ∧ w2.tree.containsId 1 = true ∧ AMap.get [((⟨8⟩ : Pk), 8)] ⟨8⟩ = some 8 ∧
    (∃ keys', e3.1.decryptTreeSecret 3 [(⟨6⟩, 6)] = .ok (keys', e3.2.2.2.1)) := by
  refine ⟨reach2, by decide +kernel, by decide, (get ([], 0) (e3.1.decryptTreeSecret 3 [(⟨6⟩, 6)])).1, by decide +kernel⟩

/-- C07 applies: Bob is removed, Carol updates; Bob knew their leaf secret `4` and the secrets of the
nodes above it; the root secret of `w5` stays out of their reach while the group goes on to `w7`. -/
example : ∃ r, RootSecret w5.tree r ∧ OnPath w3.tree r4.2.1 (gen 1) ∧
    ¬ Derivable (fun s => OnPath w3.tree r4.2.1 s ∨ s = 4) w7.pub r := by
  have hr : RootSecret w5.tree e5.2.2.2.1 := rootB_ok (by decide +kernel)
  refine ⟨e5.2.2.2.1, hr, ⟨[0, 1], by decide +kernel, 1, by simp, ?_⟩, ?_⟩
  · have h : w3.tree.innerNodes[1]? = some (some ((w3.tree.innerNodes[1]?).join.getD (SecretStore.mk []))) := by decide +kernel
    exact ⟨_, h, List.head ((w3.tree.innerNodes[1]?).join.getD (SecretStore.mk [])).versions (by decide +kernel),
        List.head_mem _, by decide +kernel⟩
  · refine C07_removed_member_cut_off_partial gen_fresh (w0 := w3) (w1 := w4) (w3 := w5) (w4 := w7) (id := 2)
      (t := r4.1) (i := r4.2.1) (removed := r4.2.2) reach3 rem4 rfl (.tail .refl step5) (.tail (.tail .refl step6) step7) ?_ hr
    rintro s (h | rfl)
    · exact Or.inl h
    · exact Or.inr (Or.inr ⟨notGen rfl, absentB_ok (by decide +kernel)⟩)

/-- C08 applies: Carol (leaf 2) updates from leaf secret `6` to `10` in `w4`. -/
example : ∃ r, RootSecret w5.tree r ∧ ¬ Derivable (fun s => OnPath w4.tree 2 s ∨ s = 6) w7.pub r := by
  have hr : RootSecret w5.tree e5.2.2.2.1 := rootB_ok (by decide +kernel)
  refine ⟨e5.2.2.2.1, hr, ?_⟩
  refine C08_update_heals_partial gen_fresh (w0 := w4) (w1 := w5) (w3 := w5) (w4 := w7) (id := 3) (i := 2) (sk := 10)
    (.step reach3 step4) (by decide +kernel) (notGen rfl) (by decide) upd5 rfl .refl (.tail (.tail .refl step6) step7) ?_ hr
  rintro s (h | rfl)
  · exact Or.inl h
  · exact Or.inr (Or.inr ⟨notGen rfl, absentB_ok (by decide +kernel)⟩)

/-- C58 applies: Dave joins in `w6` with leaf secret `12`; he learns the root of `w7` but not the one
of `w5`. -/
example : ∃ r, RootSecret w5.tree r ∧ ¬ Derivable (fun s => s = 12) w7.pub r := by
  have hr : RootSecret w5.tree e5.2.2.2.1 := rootB_ok (by decide +kernel)
  refine ⟨e5.2.2.2.1, hr, ?_⟩
  exact C58_no_access_before_join_partial gen_fresh (w0 := w5) (w1 := w6) (w2 := w7) (id := 4) (sk := 12) (t := t6.1) (i := t6.2)
    (.step (.step reach3 step4) step5) (by decide +kernel) (notGen rfl) add6 rfl (.tail .refl step7)
    (absentB_ok (by decide +kernel)) (fun s h => Or.inl h) hr

/-- C09 applies to three concurrent changes of a node. -/
example : Concurrent (fun k => [k]) [((⟨10⟩ : Pk), [(⟨2⟩ : Pk)]), (⟨12⟩, [⟨2⟩]), (⟨14⟩, [⟨2⟩, ⟨4⟩])] ∧
    mergeAll (.share ⟨2⟩) [(.share ⟨10⟩, [⟨2⟩]), (.share ⟨12⟩, [⟨2⟩]), (.share ⟨14⟩, [⟨2⟩, ⟨4⟩])] =
      .ok (.conflict ⟨10⟩ ⟨12⟩ [⟨14⟩]) := by
  refine ⟨?_, by decide +kernel⟩
  intro c hc d hd k hk
  revert c d k
  simp

end Sample

end Verif.BeeKem.Props
