import Verif.Cgka.NearLemmas

/-! # Helper lemmas: what the calls of a replica can return when no removal is concurrent with anything -/

namespace Verif.Cgka

open Verif.BeeKem Relation BeeKem

section
variable {H : SOp → Nat} (hH : Function.Injective H)
include hH

theorem add_returns {c : Cgka} (hc : Trusted H c) (h1 : OneRootG c.graph) (hs : SerialG c.graph) {sign : Payload → Res SOp}
    (hg : GoodSigner sign) (id : MemberId) (pk : Pk) : ∃ o, (c.add H sign id pk).2 = .ok o := by
  obtain ⟨c1, r, h, e1, e2, e3, e4⟩ := replayIf_ok hH hc h1 hs
  unfold Cgka.add
  split
  · exact ⟨_, rfl⟩
  · rw [e1]
    dsimp only
    obtain ⟨t', h', f1, -⟩ := pushLeaf_full e4 id (.share pk)
    rw [f1]
    dsimp only
    obtain ⟨o, ho, -⟩ := hg (.add id pk c1.tree.nextLeafIdx c1.graph.heads c1.graph.addHeads)
    rw [ho]
    exact ⟨_, rfl⟩

theorem remove_returns {c : Cgka} (hc : Trusted H c) (h1 : OneRootG c.graph) (hs : SerialG c.graph) {sign : Payload → Res SOp}
    (hg : GoodSigner sign) (id : MemberId) : (∃ o, (c.remove H sign id).2 = .ok o) ∨
      (c.remove H sign id).2 = .error .removeLastMember ∨ (c.remove H sign id).2 = .error .identifierNotFound := by
  obtain ⟨c1, r, h, e1, e2, e3, e4⟩ := replayIf_ok hH hc h1 hs
  unfold Cgka.remove
  split
  · exact .inl ⟨_, rfl⟩
  · rw [e1]
    dsimp only
    split
    · exact .inr (.inl rfl)
    · rename_i hm
      replace hm : c1.tree.memberCount ≠ 1 := hm
      cases hid : AMap.get c1.tree.idToLeafIdx id with
      | none =>
        right; right
        have : c1.tree.removeId id = .error .identifierNotFound := by
          unfold BeeKem.removeId
          rw [if_neg hm]
          simp [BeeKem.leafIndexForId, hid, bind, Except.bind]
        rw [this]
      | some i =>
        obtain ⟨t1, B, f1, -⟩ := BeeKem.removeId_ok e4 hid hm
        rw [f1]
        dsimp only
        obtain ⟨o, ho, -⟩ := hg (.remove id i (keysOn c1.tree (path h i)) c1.graph.heads)
        rw [ho]
        exact .inl ⟨_, rfl⟩

/-- A leaf of the tree has more than one key. -/
def Conflicted (t : BeeKem) : Prop := ∃ j l a b more, t.leafD j = some l ∧ l.pk = .conflict a b more

omit hH in
theorem single_of {t : BeeKem} {h : Nat} (w : WInv t h) (hn : ¬ Conflicted t) : Single t := by
  refine ⟨fun j l hl => ?_, w.vers⟩
  cases hp : l.pk with
  | share k => exact ⟨k.of, rfl⟩
  | conflict a b more => exact absurd ⟨j, l, a, b, more, hl, hp⟩ hn

omit hH in
theorem target_calm {c : Cgka} {h : Nat} (w : WInv c.tree h) (sk : Sk) : Calm (c.updateTarget sk) := by
  unfold Cgka.updateTarget
  split
  · exact .ok _
  · cases hid : AMap.get c.tree.idToLeafIdx MemberId.pub with
    | none =>
      have : c.tree.nodeKeyForId MemberId.pub = .error .identifierNotFound := by
        simp [nodeKeyForId, leafIndexForId, hid, bind, Except.bind]
      rw [this]
      exact .err rfl
    | some i =>
      obtain ⟨l, hl, _⟩ := w.ids _ i hid
      have : c.tree.nodeKeyForId MemberId.pub = .ok l.pk := by
        unfold nodeKeyForId leafIndexForId nodeKeyForIndex
        simp only [hid, bind, Except.bind]
        rw [leaf_ok w.shape (w.lt hid), hl]
      rw [this]
      split
      · rename_i e he
        cases he
      · exact .err rfl
      · split
        · exact .err rfl
        · exact .ok _

theorem update_returns {c : Cgka} (hc : Trusted H c) (h1 : OneRootG c.graph) (hs : SerialG c.graph) {sign : Payload → Res SOp}
    (hg : GoodSigner sign) (g : BeeKem.Gen) (n : Nat) (sk : Sk) : Calm (c.update H sign g n sk).2 ∨
      ((c.update H sign g n sk).2 = .error conflictPanic ∧ ∃ t, ReplaysTo H c t ∧ Conflicted t) := by
  obtain ⟨c1, r, h, e1, e2, e3, e4⟩ := replayIf_ok hH hc h1 hs
  have sc := reachOk_inv hH (trusted_ok hc)
  have hcl := (trusted_clean hH hc).replay sc e1
  unfold Cgka.update
  rw [e1]
  dsimp only
  cases ht : c1.updateTarget sk with
  | error e => exact .inl (.err (target_calm e4 sk e ht))
  | ok p =>
    obtain ⟨uid, upk, usk⟩ := p
    dsimp only
    rcases encryptPath_weak g n e4 uid upk (AMap.insert c1.ownerSks upk usk) with ⟨t', x, f1, -⟩ | ⟨f1, -⟩ | ⟨f1, -⟩ | f1
    · left
      obtain ⟨sks, n', k, pc⟩ := x
      rw [f1]
      dsimp only
      obtain ⟨o, ho, -⟩ := hg (.update uid pc c1.graph.heads)
      rw [ho]
      exact .ok _
    · left; rw [f1]; exact .err rfl
    · left; rw [f1]; exact .err rfl
    · right
      rw [f1]
      refine ⟨rfl, c1.tree, rebuilt_replays.1 ⟨r, e2, e3.symm⟩, ?_⟩
      by_contra hcon
      have hpk : upk = ⟨usk⟩ := updateTarget_pure hcl.1 ht
      subst hpk
      cases hid : AMap.get c1.tree.idToLeafIdx uid with
      | none =>
        unfold encryptPath leafIndexForId at f1
        simp [hid, bind, Except.bind, conflictPanic] at f1
      | some i =>
        obtain ⟨l, hl, _⟩ := e4.ids _ i hid
        obtain ⟨s', newp, ν, g1, -⟩ := encryptPath_ok g n e4.shape (single_of e4 hcon) (e4.lt hid) hid hl
          (sk := usk) (sks := AMap.insert c1.ownerSks ⟨usk⟩ usk) (by rw [AMap.get_insert, if_pos rfl])
        rw [g1] at f1
        cases f1

/-- An update of a leaf that is there succeeds when no leaf holds several keys. -/
theorem update_ok {c : Cgka} (hc : Trusted H c) (h1 : OneRootG c.graph) (hs : SerialG c.graph) {sign : Payload → Res SOp}
    (hg : GoodSigner sign) (g : BeeKem.Gen) (n : Nat) (sk : Sk) {t : BeeKem} (hr : ReplaysTo H c t) (hn : ¬ Conflicted t) :
    (t.containsId c.ownerId = true → ∃ k op pc ps, (c.update H sign g n sk).2 = .ok (k, op) ∧ op.payload = .update c.ownerId pc ps ∧
      pc.leafPk = .share (shareKey sk)) ∧
    (t.containsId c.ownerId = false → ∀ pk, t.nodeKeyForId MemberId.pub = .ok (.share pk) → AMap.get c.ownerSks pk ≠ none →
      ∃ k op pc ps, (c.update H sign g n sk).2 = .ok (k, op) ∧ op.payload = .update MemberId.pub pc ps ∧ pc.leafPk = .share pk) := by
  obtain ⟨c1, r, h, e1, e2, e3, e4⟩ := replayIf_ok hH hc h1 hs
  have sc := reachOk_inv hH (trusted_ok hc)
  have hcl := (trusted_clean hH hc).replay sc e1
  obtain ⟨r', e2', e3'⟩ := rebuilt_replays.2 hr
  rw [e2] at e2'
  cases e2'
  have ht1 : c1.tree = t := e3.trans e3'
  have how : c1.ownerId = c.ownerId := (Ext.replayIfNeeded e1).owner
  have key : ∀ uid usk, c1.updateTarget sk = .ok (uid, ⟨usk⟩, usk) → c1.tree.containsId uid = true →
      ∃ k op pc ps, (c.update H sign g n sk).2 = .ok (k, op) ∧ op.payload = .update uid pc ps ∧ pc.leafPk = .share ⟨usk⟩ := by
    intro uid usk ht hid
    obtain ⟨i, hid⟩ := contains_get.1 hid
    obtain ⟨l, hl, _⟩ := e4.ids _ i hid
    obtain ⟨s', newp, ν, g1, -⟩ := encryptPath_ok g n e4.shape (single_of e4 (by rw [ht1]; exact hn)) (e4.lt hid) hid hl
      (sk := usk) (sks := AMap.insert c1.ownerSks ⟨usk⟩ usk) (by rw [AMap.get_insert, if_pos rfl])
    unfold Cgka.update
    rw [e1]
    dsimp only
    rw [ht]
    dsimp only
    rw [g1]
    dsimp only
    obtain ⟨o, ho, hp⟩ := hg (.update uid _ c1.graph.heads)
    rw [ho]
    exact ⟨_, _, _, _, rfl, hp, rfl⟩
  constructor
  · intro hid
    rw [← how] at hid ⊢
    refine key _ sk ?_ (by rw [ht1]; exact hid)
    unfold Cgka.updateTarget
    rw [if_pos (by rw [ht1]; exact hid)]
    rfl
  · intro hid pk hp hk
    obtain ⟨usk, hu⟩ := Option.ne_none_iff_exists'.1 (hcl.2 pk hk)
    have hpu := hcl.1.keys (pk, usk) (AMap.mem_of_get hu)
    dsimp only at hpu
    subst hpu
    have ht : c1.updateTarget sk = .ok (MemberId.pub, ⟨usk⟩, usk) := by
      unfold Cgka.updateTarget
      rw [if_neg (by rw [ht1, how, hid]; simp), ht1, hp]
      dsimp only
      rw [hu]
    refine key _ usk ht ?_
    rw [ht1]
    unfold nodeKeyForId leafIndexForId at hp
    cases hi : AMap.get t.idToLeafIdx MemberId.pub with
    | none => rw [hi] at hp; simp [bind, Except.bind] at hp
    | some i => exact contains_get.2 ⟨i, hi⟩

omit hH in
theorem finish_calm {c : Cgka} {k : Sk} (h : AMap.get c.pcsKeyOps ⟨k⟩ ≠ none) (op : Option SOp) (r ps : Nat) :
    Calm (c.finishAppSecret k op r ps).2 := by
  unfold Cgka.finishAppSecret
  split
  · rename_i hn; exact absurd hn h
  · exact .ok _

omit hH in
theorem hasKey_calm {c : Cgka} {h : Nat} (w : WInv c.tree h) : ∃ b, c.hasPcsKey = .ok b := by
  unfold Cgka.hasPcsKey
  simp only [hasRootKey_ok w.shape, bind, Except.bind, pure, Except.pure]
  exact ⟨_, rfl⟩

omit hH in
theorem insert_has (c : Cgka) (k : Sk) (x : Nat) : AMap.get (c.insertPcsKey k x).pcsKeyOps ⟨k⟩ ≠ none := by
  show AMap.get (AMap.insert c.pcsKeyOps ⟨k⟩ x) ⟨k⟩ ≠ none
  rw [AMap.get_insert, if_pos rfl]
  simp

theorem encrypt_returns {c : Cgka} (hc : Trusted H c) (h1 : OneRootG c.graph) (hs : SerialG c.graph) {sign : Payload → Res SOp}
    (hg : GoodSigner sign) (g : BeeKem.Gen) (n : Nat) (r ps : Nat) : Calm (c.newAppSecretFor H sign g n r ps).2 ∨
      ((c.newAppSecretFor H sign g n r ps).2 = .error conflictPanic ∧ ∃ t, ReplaysTo H c t ∧ Conflicted t) := by
  obtain ⟨h, w, -⟩ := trusted_near hH hc h1 hs
  have sc := reachOk_inv hH (trusted_ok hc)
  obtain ⟨b, hb⟩ := hasKey_calm w
  unfold Cgka.newAppSecretFor
  rw [hb]
  cases b with
  | false =>
    dsimp only
    rcases update_returns hH hc h1 hs hg g (n + 1) (g n) with e | ⟨e, e'⟩
    · left
      split
      · rename_i c1 er he
        rw [he] at e
        exact .err (e er rfl)
      · exact finish_calm (insert_has _ _ _) _ _ _
    · right
      refine ⟨?_, e'⟩
      split
      · rename_i c1 er he
        rw [he] at e
        simpa using e
      · rename_i c1 k op he
        rw [he] at e
        simp at e
  | true =>
    left
    dsimp only
    have ht := treeRoot_calm w
    cases hq : c.pcsKeyFromTreeRoot with
    | error e => exact .err (ht e hq)
    | ok p =>
      obtain ⟨c1, k⟩ := p
      have hx := Ext.treeRoot hq
      have hcoh := hx.coh sc.coh
      dsimp only
      split
      · rename_i hcon
        refine finish_calm ?_ _ _ _
        rw [hcoh.ops]
        rwa [AMap.contains_iff, AMap.mem_keys_iff] at hcon
      · split
        · rename_i hnil
          exfalso
          rw [hx.graph] at hnil
          exact sc.graph.ne hnil
        · exact finish_calm (insert_has _ _ _) _ _ _

theorem derive_calm {c : Cgka} (hc : Trusted H c) (h1 : OneRootG c.graph) (hs : SerialG c.graph) {c' : Cgka} (hx : Ext c c')
    (x : Nat) : Calm (c'.derivePcsKeyForOp H x) := by
  have sc := reachOk_inv hH (trusted_ok hc)
  unfold Cgka.derivePcsKeyForOp
  split
  · exact .err rfl
  · rename_i hk
    have hk' : AMap.get c.graph.ops x ≠ none := by
      rw [hx.graph] at hk
      rw [← containsOpHash_iff]
      simpa using hk
    obtain ⟨w, w1, w2, w3, -⟩ := trusted_maker hH hc x hk'
    have sw := reachOk_inv hH (trusted_ok w1)
    have h1w := oneRoot_sub hH sw.graph sc.graph w3 h1
    have hsw := serial_sub hH sw.graph sc.graph w3 hs
    obtain ⟨i1, i2⟩ := root_agree hH sc sw w3 h1
    obtain ⟨rw0, hw0, e1, e2, -⟩ := rebuilds hH w1 h1w hsw
    obtain ⟨l, es, hl, hts, hlm, hes, hsp⟩ := order_spec sc.graph h1 (heads := [x]) (by simp) (by simpa using hk') (by simp)
    obtain ⟨lw, ew, hlw, htw, -⟩ := order_spec sw.graph h1w sw.graph.headsN
      (fun x hx => ((sw.graph.heads x).1 hx).1) sw.graph.ne
    have htw' : w.graph.topsortGraph = .ok ew := htw
    have := topsort_sub (sub_of_known hH sw.graph sc.graph w3) sw.graph sc.graph w2 htw'
    rw [hts] at this
    cases this
    rw [hx.graph, hts]
    simp only [bind, Except.bind]
    unfold Cgka.rebuildPcsKey
    have hlast : ∃ q, Cgka.lastHash H es = .ok q := by
      unfold Cgka.lastHash
      have hne : es ≠ [] := by
        intro hc
        rw [hc] at hlm
        have := (hsp.mem x).2 (.head (by simp))
        rw [← hlm] at this
        simp at this
      rw [List.getLast?_eq_some_getLast hne]
      have h2 : es.getLast hne ≠ [] := by
        intro hc
        apply hsp.ne []
        · rw [← hlm]
          exact List.mem_map.2 ⟨_, List.getLast_mem hne, by rw [hc]; rfl⟩
        · rfl
      cases hq : es.getLast hne with
      | nil => exact absurd hq h2
      | cons o _ => exact ⟨_, rfl⟩
    unfold rebuilt at e1
    rw [htw', i1, i2] at e1
    simp only [bind, Except.bind] at e1
    split at e1
    · simp at e1
    · rename_i s hs'
      have hst : c'.rebuildStart H = .ok (s.withNewOwner c'.ownerId c'.ownerSks) := by
        unfold Cgka.rebuildStart
        rw [hx.orig, hx.init, hs']
        rfl
      simp only [hst, bind, Except.bind]
      obtain ⟨y, hy, hyt⟩ := sameTG_ok (applyEpochs_congr H es (c := s) (d := s.withNewOwner c'.ownerId c'.ownerSks) rfl) e1
      rw [hy]
      simp only [tg, Prod.mk.injEq] at hyt
      have wy : WInv y.tree hw0 := by rw [hyt.1]; exact e2
      have ht := treeRoot_calm wy
      dsimp only
      cases hq : y.pcsKeyFromTreeRoot with
      | error e => exact .err (ht e hq)
      | ok p =>
        obtain ⟨q, hq'⟩ := hlast
        dsimp only
        rw [hq']
        exact .ok _

theorem decrypt_returns {c : Cgka} (hc : Trusted H c) (h1 : OneRootG c.graph) (hs : SerialG c.graph) (e : EncContent) :
    Calm (c.decryptionKeyFor H e).2 := by
  obtain ⟨h, w, -⟩ := trusted_near hH hc h1 hs
  have hp : Calm (c.pcsKeyFromHashes H e.pcsKeyHash e.pcsUpdateOpHash).2 := by
    unfold Cgka.pcsKeyFromHashes
    split
    · exact .ok _
    · have hcur : Calm (c.currentRootFor e.pcsKeyHash).2 := by
        unfold Cgka.currentRootFor
        obtain ⟨b, hb⟩ := hasKey_calm w
        rw [hb]
        cases b with
        | false => exact .ok _
        | true =>
          dsimp only
          have ht := treeRoot_calm w
          cases hq : c.pcsKeyFromTreeRoot with
          | error er =>
            dsimp only
            rw [if_neg (by simp [ht er hq])]
            exact .ok _
          | ok p => exact .ok _
      have hx := Ext.currentRoot c e.pcsKeyHash
      split
      · rename_i c1 er he
        rw [he] at hcur
        exact .err (hcur er rfl)
      · exact .ok _
      · rename_i c1 he
        rw [he] at hx
        have hd := derive_calm hH hc h1 hs hx e.pcsUpdateOpHash
        dsimp only at hd ⊢
        cases hq : c1.derivePcsKeyForOp H e.pcsUpdateOpHash with
        | error er => exact .err (hd er hq)
        | ok p => exact .ok _
  unfold Cgka.decryptionKeyFor
  split
  · rename_i c1 er he
    rw [he] at hp
    exact .err (hp er rfl)
  · exact .ok _

end

end Verif.Cgka
