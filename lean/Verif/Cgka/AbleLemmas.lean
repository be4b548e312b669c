import Verif.Cgka.PublicLemmas

/-! # Whoever is in the group can write: lemmas for C126 -/

namespace Verif.Cgka

open Verif.BeeKem

variable {H : SOp → Nat} (hH : Function.Injective H)

theorem strong_unconflicted {t : BeeKem} (h : Strong t) : ¬ Conflicted t := by
  obtain ⟨_, _, hg⟩ := h
  rintro ⟨j, l, a, b, more, h1, h2⟩
  obtain ⟨s, hs⟩ := hg.single.leaf j l h1
  rw [h2] at hs
  cases hs

theorem finish_ok {c : Cgka} {k : Sk} (h : AMap.get c.pcsKeyOps ⟨k⟩ ≠ none) (op : Option SOp) (r ps : Nat) :
    ∃ s, (c.finishAppSecret k op r ps).2 = .ok (s, op) := by
  unfold Cgka.finishAppSecret
  split
  · rename_i hn; exact absurd hn h
  · exact ⟨_, rfl⟩

include hH in
/-- What taking everything in leaves. -/
theorem replays_strong {c : Cgka} (hc : Trusted H c) (T : TogetherG c.graph) :
    ∃ t, ReplaysTo H c t ∧ Strong t ∧ t.idToLeafIdx = c.tree.idToLeafIdx ∧ (c.graph.heads.length = 1 → t = c.tree) := by
  have sc := reachOk_inv hH (trusted_ok hc)
  obtain ⟨c1, r, h, f1, f2, f3, -⟩ := replayIf_ok hH hc (together_oneRoot hH hc T) T.serial
  obtain ⟨c2, g1, g2, g3⟩ := joins_replay hH hc T
  rw [f1] at g1
  cases g1
  exact ⟨c1.tree, rebuilt_replays.1 ⟨r, f2, f3.symm⟩, g2, g3, fun hl => by rw [replay_single sc hl f1]⟩

include hH in
theorem able {c : Cgka} (hc : Trusted H c) (T : TogetherG c.graph) {sign : Payload → Res SOp} (g : BeeKem.Gen) (n r ps : Nat)
    (hu : ∃ k op, (c.update H sign g (n + 1) (g n)).2 = .ok (k, op))
    (hl : c.graph.heads.length = 1 → c.tree.hasRootKey = .ok true → ∃ c1 k, c.pcsKeyFromTreeRoot = .ok (c1, k)) :
    ∃ s o, (c.newAppSecretFor H sign g n r ps).2 = .ok (s, o) := by
  obtain ⟨h, w, -⟩ := trusted_near hH hc (together_oneRoot hH hc T) T.serial
  have sc := reachOk_inv hH (trusted_ok hc)
  obtain ⟨b, hb⟩ := hasKey_calm w
  unfold Cgka.newAppSecretFor
  rw [hb]
  cases b with
  | false =>
    dsimp only
    obtain ⟨k, op, hu⟩ := hu
    cases hq : c.update H sign g (n + 1) (g n) with
    | mk c1 x =>
      rw [hq] at hu
      dsimp only at hu
      subst hu
      obtain ⟨s, hs⟩ := finish_ok (insert_has c1 k (H op)) (some op) r ps
      exact ⟨s, _, hs⟩
  | true =>
    dsimp only
    have hr : c.tree.hasRootKey = .ok true ∧ c.graph.heads.length = 1 := by
      unfold Cgka.hasPcsKey at hb
      cases hq : c.tree.hasRootKey with
      | error e => rw [hq] at hb; simp [bind, Except.bind] at hb
      | ok b =>
        rw [hq] at hb
        simp only [bind, Except.bind, pure, Except.pure, Except.ok.injEq, Bool.and_eq_true] at hb
        refine ⟨by rw [hb.1.1], ?_⟩
        have := hb.1.2
        unfold Graph.hasSingleHead at this
        simpa using this
    obtain ⟨c1, k, hq⟩ := hl hr.2 hr.1
    rw [hq]
    have hx := Ext.treeRoot hq
    have hcoh := hx.coh sc.coh
    dsimp only
    split
    · rename_i hcon
      obtain ⟨s, hs⟩ := finish_ok (c := c1) (k := k) (by
        rw [hcoh.ops]
        rwa [AMap.contains_iff, AMap.mem_keys_iff] at hcon) none r ps
      exact ⟨s, _, hs⟩
    · split
      · rename_i hnil
        exfalso
        rw [hx.graph] at hnil
        exact sc.graph.ne hnil
      · rename_i x l _
        obtain ⟨s, hs⟩ := finish_ok (insert_has c1 k x) none r ps
        exact ⟨s, _, hs⟩

include hH in
/-- A member can write and replace keys. -/
theorem able_member {c : Cgka} (hc : Trusted H c) (T : TogetherG c.graph) {sign : Payload → Res SOp} (hg : GoodSigner sign)
    (hin : c.tree.containsId c.ownerId = true) (hh : c.graph.heads.length = 1 → HoldsLeaf c.tree c.ownerId c.ownerSks) (g : BeeKem.Gen) (n : Nat) :
    (∀ r ps, ∃ s o, (c.newAppSecretFor H sign g n r ps).2 = .ok (s, o)) ∧
    ∀ sk, ∃ k op pc ps, (c.update H sign g n sk).2 = .ok (k, op) ∧ op.payload = .update c.ownerId pc ps ∧ pc.leafPk = .share (shareKey sk) := by
  obtain ⟨t, t1, t2, t3, t4⟩ := replays_strong hH hc T
  have hin' : t.containsId c.ownerId = true := by unfold BeeKem.containsId at hin ⊢; rw [t3]; exact hin
  have hu := fun n sk => (update_ok hH hc (together_oneRoot hH hc T) T.serial hg g n sk t1 (strong_unconflicted t2)).1 hin'
  refine ⟨fun r ps => able hH hc T g n r ps ?_ ?_, fun sk => hu n sk⟩
  · obtain ⟨k, op, _, _, e, -⟩ := hu (n + 1) (g n)
    exact ⟨k, op, e⟩
  · intro hl hr
    rw [t4 hl] at t2
    obtain ⟨sks', k, d1, -⟩ := strong_decrypt t2 hr (trusted_clean hH hc).keys (hh hl)
    unfold Cgka.pcsKeyFromTreeRoot
    rw [d1]
    exact ⟨_, _, rfl⟩

include hH in
/-- So can anybody who holds the secret of the public individual's leaf. -/
theorem able_public {c : Cgka} (hc : Trusted H c) (T : TogetherG c.graph) {sign : Payload → Res SOp} (hg : GoodSigner sign)
    (hout : c.tree.containsId c.ownerId = false) {pk : Pk} (hp : ∀ t, ReplaysTo H c t → t.nodeKeyForId MemberId.pub = .ok (.share pk))
    (hs : AMap.get c.ownerSks pk ≠ none) (g : BeeKem.Gen) (n : Nat) :
    (∀ r ps, ∃ s o, (c.newAppSecretFor H sign g n r ps).2 = .ok (s, o)) ∧
    ∀ sk, ∃ k op pc ps, (c.update H sign g n sk).2 = .ok (k, op) ∧ op.payload = .update MemberId.pub pc ps ∧ pc.leafPk = .share pk := by
  obtain ⟨t, t1, t2, t3, t4⟩ := replays_strong hH hc T
  have hout' : t.containsId c.ownerId = false := by unfold BeeKem.containsId at hout ⊢; rw [t3]; exact hout
  have hu := fun n sk => (update_ok hH hc (together_oneRoot hH hc T) T.serial hg g n sk t1 (strong_unconflicted t2)).2 hout' pk (hp t t1) hs
  refine ⟨fun r ps => able hH hc T g n r ps ?_ ?_, fun sk => hu n sk⟩
  · obtain ⟨k, op, _, _, e, -⟩ := hu (n + 1) (g n)
    exact ⟨k, op, e⟩
  · intro hl hr
    have hpt := hp t t1
    rw [t4 hl] at t2 hpt
    obtain ⟨sk, hsk⟩ := Option.ne_none_iff_exists'.1 hs
    have hm : HoldsLeaf c.tree MemberId.pub c.ownerSks := ⟨pk, sk, hpt, hsk⟩
    obtain ⟨sks', k, d1, d2⟩ := strong_decrypt t2 hr (trusted_clean hH hc).keys hm
    obtain ⟨c', h⟩ := open_public t2 (trusted_clean hH hc).tree (trusted_clean hH hc).keys hm hr (rootKey_of d2).2 (c := c) rfl rfl
    exact ⟨c', k, h⟩

end Verif.Cgka
