import Verif.Cgka.TrustSpec
import Verif.Cgka.Props
import Verif.BeeKem.Truthful

/-! # Helper lemmas: in a group of honest replicas keys and ciphertexts are what they claim to be -/

namespace Verif.Cgka

open Verif.BeeKem

theorem trusted_ok {H : SOp → Nat} {c : Cgka} (h : Trusted H c) : ReachOk H c := by
  induction h with
  | new h1 h2 => exact .new h1 h2
  | owner me sks _ _ ih => exact .owner me sks ih
  | call _ _ hs ih => exact .call ih hs
  | receive _ _ _ ih _ => exact .call ih trivial

/-- The stores of an update hold what they claim. -/
def SOp.True (op : SOp) : Prop := ∀ id pc ps, op.payload = .update id pc ps → pc.True

/-- Honest keys, a truthful tree, truthful operations. -/
structure Clean (c : Cgka) : Prop where
  keys : Pure c.ownerSks
  tree : c.tree.Truthful
  ops : ∀ x op, AMap.get c.graph.ops x = some op → op.True

theorem Clean.congr {c c' : Cgka} (h : Clean c) (hk : c'.ownerSks = c.ownerSks) (ht : c'.tree = c.tree)
    (hg : c'.graph = c.graph) : Clean c' := ⟨by rw [hk]; exact h.keys, by rw [ht]; exact h.tree, by rw [hg]; exact h.ops⟩

theorem treeOp_truthful {t t' : BeeKem} {op : SOp} (ht : t.Truthful) (ho : op.True) (h : treeOp t op = .ok t') :
    t'.Truthful := by
  unfold treeOp at h
  split at h
  · simp only [bind, Except.bind] at h
    split at h
    · simp at h
    · rename_i p hp
      obtain ⟨t1, i⟩ := p
      cases h
      exact ht.fewer (BeeKem.pushLeaf_fewer hp)
  · simp only [bind, Except.bind] at h
    split at h
    · simp at h
    · rename_i p hp
      obtain ⟨t1, i⟩ := p
      cases h
      exact ht.fewer (BeeKem.removeId_fewer hp)
  · rename_i id pc ps hpay
    exact BeeKem.applyPath_truthful ht (ho _ _ _ hpay) h

theorem Clean.apply {H : SOp → Nat} {c c' : Cgka} {op : SOp} (hc : Clean c) (ho : op.True)
    (h : c.applyOperation H op = .ok c') : Clean c' := by
  cases hf : AMap.get c.graph.ops (H op) with
  | some o =>
    unfold Cgka.applyOperation at h
    rw [if_pos (by rw [containsOpHash_iff]; simp [hf])] at h
    cases h; exact hc
  | none =>
    rw [applyOperation_eq hf] at h
    cases h1 : treeOp c.tree op with
    | error e => rw [h1] at h; simp [Except.bind] at h
    | ok t =>
    rw [h1] at h
    cases h
    refine ⟨hc.keys, treeOp_truthful hc.tree ho h1, ?_⟩
    intro x o hx
    change AMap.get (AMap.insert c.graph.ops (H op) op) x = some o at hx
    rw [AMap.get_insert] at hx
    split at hx
    · cases hx; exact ho
    · exact hc.ops x o hx

theorem Clean.applyOps {H : SOp → Nat} (l : List SOp) {c c' : Cgka} (hc : Clean c) (ho : ∀ o ∈ l, o.True)
    (h : c.applyOps H l = .ok c') : Clean c' := by
  induction l generalizing c with
  | nil => cases h; exact hc
  | cons o l ih =>
    unfold Cgka.applyOps at h
    simp only [bind, Except.bind] at h
    split at h
    · simp at h
    · rename_i c1 h1
      exact ih (hc.apply (ho o List.mem_cons_self) h1) (fun q hq => ho q (List.mem_cons_of_mem _ hq)) h

theorem Clean.applyEpoch {H : SOp → Nat} {l : List SOp} {c c' : Cgka} (hc : Clean c) (ho : ∀ o ∈ l, o.True)
    (h : c.applyEpoch H l = .ok c') : Clean c' := by
  unfold Cgka.applyEpoch at h
  split at h
  · exact hc.applyOps l ho h
  · simp only [bind, Except.bind] at h
    split at h
    · simp at h
    · rename_i c1 h1
      split at h
      · simp at h
      · rename_i t ht
        cases h
        have := hc.applyOps l ho h1
        exact ⟨this.keys, this.tree.fewer (BeeKem.sortLeaves_fewer ht), this.ops⟩

theorem Clean.applyEpochs {H : SOp → Nat} (es : List (List SOp)) {c c' : Cgka} (hc : Clean c)
    (ho : ∀ o ∈ es.flatten, o.True) (h : c.applyEpochs H es = .ok c') : Clean c' := by
  induction es generalizing c with
  | nil => cases h; exact hc
  | cons e es ih =>
    unfold Cgka.applyEpochs at h
    simp only [bind, Except.bind] at h
    split at h
    · simp at h
    · rename_i c1 h1
      refine ih (hc.applyEpoch (fun o hq => ho o ?_) h1) (fun o hq => ho o ?_) h
      · rw [List.flatten_cons]; exact List.mem_append_left _ hq
      · rw [List.flatten_cons]; exact List.mem_append_right _ hq

/-- Keys are added, none is lost. -/
def Grow (m m' : ShareKeyMap) : Prop := ∀ pk, AMap.get m pk ≠ none → AMap.get m' pk ≠ none

theorem Clean.treeRoot {c c' : Cgka} {k : Sk} (hc : Clean c) (h : c.pcsKeyFromTreeRoot = .ok (c', k)) :
    Clean c' ∧ c.tree.nodeKeyForIndex (TreeMath.root c.tree.treeSize) = .ok (.share ⟨k⟩) ∧ Grow c.ownerSks c'.ownerSks := by
  unfold Cgka.pcsKeyFromTreeRoot at h
  split at h
  · rename_i sks k' hd
    cases h
    obtain ⟨a1, a2, a3⟩ := BeeKem.decryptTreeSecret_true hc.tree hc.keys hd
    exact ⟨⟨a1, hc.tree, hc.ops⟩, a2, a3⟩
  · split at h
    · simp at h
    · split at h
      · simp only [bind, Except.bind] at h
        split at h
        · simp at h
        · rename_i p hd
          obtain ⟨sks, k'⟩ := p
          cases h
          obtain ⟨a1, a2, a3⟩ := BeeKem.decryptTreeSecret_true hc.tree hc.keys hd
          exact ⟨⟨a1, hc.tree, hc.ops⟩, a2, a3⟩
      · simp at h

theorem Grow.refl (m : ShareKeyMap) : Grow m m := fun _ h => h

theorem Grow.trans {a b c : ShareKeyMap} (h : Grow a b) (h' : Grow b c) : Grow a c := fun pk hp => h' pk (h pk hp)

theorem Grow.insert (m : ShareKeyMap) (pk : Pk) (sk : Sk) : Grow m (AMap.insert m pk sk) := by
  intro x hx
  rw [AMap.get_insert]
  split <;> simp_all

theorem first_true {op : SOp} {id : MemberId} {pk : Pk} (h : First op.payload id pk) : op.True := by
  obtain ⟨n, ps, hp⟩ := h
  intro a b d hq
  rw [hp] at hq
  simp at hq

theorem Clean.new {H : SOp → Nat} {id : MemberId} {pk : Pk} {op : SOp} {c : Cgka} (hp : First op.payload id pk)
    (hn : Cgka.newFromInitAdd H id pk op = .ok c) : Clean c := by
  unfold Cgka.newFromInitAdd at hn
  simp only [bind, Except.bind] at hn
  split at hn
  · simp at hn
  · rename_i t ht
    cases hn
    refine ⟨by intro p hp; simp at hp, BeeKem.new_truthful ht, ?_⟩
    intro x o hx
    change AMap.get (AMap.insert [] (H op) op) x = some o at hx
    rw [AMap.get_insert] at hx
    split at hx
    · cases hx; exact first_true hp
    · simp at hx

theorem Clean.rebuildStart {H : SOp → Nat} {c r : Cgka} (hc : Clean c) (hs : SInv H c) (h : c.rebuildStart H = .ok r) :
    Clean r := by
  unfold Cgka.rebuildStart at h
  simp only [bind, Except.bind] at h
  split at h
  · simp at h
  · rename_i r0 h0
    cases h
    have := Clean.new hs.root.2 h0
    exact ⟨hc.keys, this.tree, this.ops⟩

theorem Clean.rebuild {H : SOp → Nat} {c r : Cgka} {es : List (List SOp)} (hc : Clean c) (hs : SInv H c)
    (ho : ∀ o ∈ es.flatten, o.True) (h : c.rebuildCgka H es = .ok r) : Clean r := by
  unfold Cgka.rebuildCgka at h
  simp only [bind, Except.bind] at h
  split at h
  · simp at h
  · rename_i r0 h0
    split at h
    · simp at h
    · rename_i r1 h1
      have c1 := (hc.rebuildStart hs h0).applyEpochs es ho h1
      split at h
      · simp at h
      · split at h
        · split at h
          · simp at h
          · rename_i p hp
            obtain ⟨r', k⟩ := p
            split at h
            · simp at h
            · cases h
              have := (c1.treeRoot hp).1
              exact this.congr rfl rfl rfl
        · cases h; exact c1

theorem Clean.replay {H : SOp → Nat} {c c' : Cgka} (hc : Clean c) (hs : SInv H c) (h : c.replayIfNeeded H = .ok c') :
    Clean c' ∧ Grow c.ownerSks c'.ownerSks := by
  unfold Cgka.replayIfNeeded at h
  split at h
  · unfold Cgka.replayOpsGraph at h
    simp only [bind, Except.bind] at h
    split at h
    · simp at h
    · rename_i es hes
      split at h
      · simp at h
      · rename_i r hr
        cases h
        obtain ⟨_, _, _, _, hk⟩ := topsort_known hs.graph hes
        have cr := hc.rebuild hs (fun o ho => hc.ops _ _ (hk o ho)) hr
        exact ⟨⟨hc.keys.extend cr.keys, cr.tree, hc.ops⟩, fun pk hp => extend_get hp⟩
  · cases h; exact ⟨hc, Grow.refl _⟩

theorem Clean.insertPcsKey {c : Cgka} (hc : Clean c) (k : Sk) (x : Nat) : Clean (c.insertPcsKey k x) :=
  hc.congr rfl rfl rfl

theorem Clean.local {H : SOp → Nat} {c c' : Cgka} {op : SOp} (hc : Clean c) (ho : op.True) (hk : Pure c'.ownerSks)
    (ht : c'.tree.Truthful) (hg : c'.graph = c.graph.addLocalOp H op) : Clean c' := by
  refine ⟨hk, ht, ?_⟩
  intro x o hx
  rw [hg] at hx
  change AMap.get (AMap.insert c.graph.ops (H op) op) x = some o at hx
  rw [AMap.get_insert] at hx
  split at hx
  · cases hx; exact ho
  · exact hc.ops x o hx

theorem Clean.add {H : SOp → Nat} {sign : Payload → Res SOp} (hg : GoodSigner sign) {c : Cgka} (hc : Clean c)
    (hs : SInv H c) (id : MemberId) (pk : Pk) :
    Clean (c.add H sign id pk).1 ∧ Grow c.ownerSks (c.add H sign id pk).1.ownerSks := by
  unfold Cgka.add
  split
  · exact ⟨hc, Grow.refl _⟩
  · split
    · exact ⟨hc, Grow.refl _⟩
    · rename_i c1 hr
      obtain ⟨h1, g1⟩ := hc.replay hs hr
      split
      · exact ⟨h1, g1⟩
      · rename_i t i hp
        dsimp only
        obtain ⟨o, ho, hpay⟩ := hg (.add id pk i c1.graph.heads c1.graph.addHeads)
        rw [ho]
        dsimp only
        refine ⟨Clean.local (c := c1) (op := o) h1 ?_ h1.keys (h1.tree.fewer (BeeKem.pushLeaf_fewer hp)) rfl, g1⟩
        intro a b d hq
        rw [hpay] at hq; simp at hq

theorem Clean.remove {H : SOp → Nat} {sign : Payload → Res SOp} (hg : GoodSigner sign) {c : Cgka} (hc : Clean c)
    (hs : SInv H c) (id : MemberId) :
    Clean (c.remove H sign id).1 ∧ Grow c.ownerSks (c.remove H sign id).1.ownerSks := by
  unfold Cgka.remove
  split
  · exact ⟨hc, Grow.refl _⟩
  · split
    · exact ⟨hc, Grow.refl _⟩
    · rename_i c1 hr
      obtain ⟨h1, g1⟩ := hc.replay hs hr
      split
      · exact ⟨h1, g1⟩
      · split
        · exact ⟨h1, g1⟩
        · rename_i t i rk hp
          dsimp only
          obtain ⟨o, ho, hpay⟩ := hg (.remove id i rk c1.graph.heads)
          rw [ho]
          dsimp only
          refine ⟨Clean.local (c := c1) (op := o) h1 ?_ h1.keys (h1.tree.fewer (BeeKem.removeId_fewer hp)) rfl, g1⟩
          intro a b d hq
          rw [hpay] at hq; simp at hq

theorem updateTarget_pure {c : Cgka} (hc : Clean c) {newSk usk : Sk} {uid : MemberId} {upk : Pk}
    (h : c.updateTarget newSk = .ok (uid, upk, usk)) : upk = ⟨usk⟩ := by
  unfold Cgka.updateTarget at h
  split at h
  · cases h; rfl
  · split at h
    · split at h <;> simp at h
    · simp at h
    · split at h
      · simp at h
      · rename_i sk hsk
        cases h
        exact hc.keys.get _ _ hsk

theorem encryptPath_grow {t t' : BeeKem} {g : BeeKem.Gen} {c n : Nat} {id : MemberId} {pk : Pk} {sks sks' : ShareKeyMap}
    {k : Sk} {pc : PathChange} (h : t.encryptPath g c id pk sks = .ok (t', sks', n, k, pc)) : Grow sks sks' := by
  have loop : ∀ (fuel : Nat) (s s' : BeeKem.EncState), BeeKem.encryptLoop g fuel s = .ok s' → Grow s.sks s'.sks := by
    intro fuel
    induction fuel with
    | zero => intro s s' h; simp [BeeKem.encryptLoop] at h
    | succ fuel ih =>
      intro s s' h
      unfold BeeKem.encryptLoop at h
      split at h
      · cases h; exact Grow.refl _
      · simp only [bind, Except.bind] at h
        split at h
        · simp at h
        · rename_i s1 h1
          refine Grow.trans ?_ (ih _ _ h)
          unfold BeeKem.encryptStep at h1
          simp only [bind, Except.bind] at h1
          split at h1
          · simp at h1
          · split at h1
            · simp at h1
            · split at h1
              · simp at h1
              · cases h1
                exact Grow.insert _ _ _
  unfold BeeKem.encryptPath at h
  simp only [bind, Except.bind] at h
  split at h
  · simp at h
  · split at h
    · simp at h
    · split at h
      · simp at h
      · split at h
        · simp at h
        · split at h
          · simp at h
          · rename_i s hs
            cases h
            exact loop _ _ _ hs

theorem Clean.update {H : SOp → Nat} {sign : Payload → Res SOp} (hg : GoodSigner sign) {c : Cgka} (hc : Clean c)
    (hs : SInv H c) (g : BeeKem.Gen) (n : Nat) (newSk : Sk) :
    Clean (c.update H sign g n newSk).1 ∧ Grow c.ownerSks (c.update H sign g n newSk).1.ownerSks := by
  unfold Cgka.update
  split
  · exact ⟨hc, Grow.refl _⟩
  · rename_i c1 hr
    obtain ⟨h1, g1⟩ := hc.replay hs hr
    split
    · exact ⟨h1, g1⟩
    · rename_i uid upk usk ht
      have := updateTarget_pure h1 ht
      subst this
      have h2 : Pure (AMap.insert c1.ownerSks ⟨usk⟩ usk) := h1.keys.insert usk
      have g2 : Grow c.ownerSks (AMap.insert c1.ownerSks ⟨usk⟩ usk) := g1.trans (Grow.insert _ _ _)
      dsimp only
      split
      · exact ⟨⟨h2, h1.tree, h1.ops⟩, g2⟩
      · rename_i t sks n' k pc henc
        obtain ⟨o, ho, hpay⟩ := hg (.update uid pc c1.graph.heads)
        rw [ho]
        dsimp only
        obtain ⟨e1, e2⟩ := BeeKem.encryptPath_true h2 henc
        refine ⟨Clean.local (c := c1) (op := o) h1 ?_ e2 ?_ rfl, g2.trans (encryptPath_grow henc)⟩
        · intro a b d hq
          rw [hpay] at hq
          simp only [Payload.update.injEq] at hq
          rw [← hq.2.1]; exact e1
        · exact BeeKem.applyPath_truthful h1.tree e1 (BeeKem.encryptPath_applies henc)

theorem Clean.currentRoot {c : Cgka} (hc : Clean c) (h : PcsHash) :
    Clean (c.currentRootFor h).1 ∧ Grow c.ownerSks (c.currentRootFor h).1.ownerSks := by
  unfold Cgka.currentRootFor
  split
  · exact ⟨hc, Grow.refl _⟩
  · exact ⟨hc, Grow.refl _⟩
  · split
    · split <;> exact ⟨hc, Grow.refl _⟩
    · rename_i c' k hr
      obtain ⟨a, _, b⟩ := hc.treeRoot hr
      exact ⟨a, b⟩

theorem derive_frame {H : SOp → Nat} {c c' : Cgka} {o : Nat} {k : Sk} (h : c.derivePcsKeyForOp H o = .ok (c', k)) :
    c'.tree = c.tree ∧ c'.graph = c.graph ∧ c'.ownerSks = c.ownerSks := by
  unfold Cgka.derivePcsKeyForOp at h
  split at h
  · simp at h
  · simp only [bind, Except.bind] at h
    split at h
    · simp at h
    · unfold Cgka.rebuildPcsKey at h
      simp only [bind, Except.bind] at h
      split at h
      · simp at h
      · split at h
        · simp at h
        · split at h
          · simp at h
          · split at h
            · simp at h
            · cases h; exact ⟨rfl, rfl, rfl⟩

theorem Clean.decrypt {H : SOp → Nat} {c : Cgka} (hc : Clean c) (e : EncContent) :
    Clean (c.decryptionKeyFor H e).1 ∧ Grow c.ownerSks (c.decryptionKeyFor H e).1.ownerSks := by
  have hfh : Clean (c.pcsKeyFromHashes H e.pcsKeyHash e.pcsUpdateOpHash).1 ∧
      Grow c.ownerSks (c.pcsKeyFromHashes H e.pcsKeyHash e.pcsUpdateOpHash).1.ownerSks := by
    unfold Cgka.pcsKeyFromHashes
    split
    · exact ⟨hc, Grow.refl _⟩
    · have hx := hc.currentRoot e.pcsKeyHash
      split
      · rename_i c1 _ he; rw [he] at hx; exact hx
      · rename_i c1 _ he; rw [he] at hx; exact hx
      · rename_i c1 he
        rw [he] at hx
        split
        · exact hx
        · rename_i c2 k hd
          obtain ⟨d1, d2, d3⟩ := derive_frame hd
          exact ⟨hx.1.congr d3 d1 d2, by rw [d3]; exact hx.2⟩
  unfold Cgka.decryptionKeyFor
  split
  · rename_i c1 err he; rw [he] at hfh; exact hfh
  · rename_i c1 k he
    rw [he] at hfh
    dsimp only
    split
    · exact hfh
    · exact ⟨hfh.1.insertPcsKey _ _, hfh.2⟩

theorem Clean.encrypt {H : SOp → Nat} {sign : Payload → Res SOp} (hg : GoodSigner sign) {c : Cgka} (hc : Clean c)
    (hs : SInv H c) (g : BeeKem.Gen) (n r ps : Nat) : Clean (c.newAppSecretFor H sign g n r ps).1 ∧
    Grow c.ownerSks (c.newAppSecretFor H sign g n r ps).1.ownerSks := by
  have hfin : ∀ (c : Cgka) (k : Sk) (op : Option SOp), (c.finishAppSecret k op r ps).1 = c := by
    intro c k op; unfold Cgka.finishAppSecret; split <;> rfl
  unfold Cgka.newAppSecretFor
  split
  · exact ⟨hc, Grow.refl _⟩
  · have hu := hc.update hg hs g (n + 1) (g n)
    split
    · rename_i c1 e he; rw [he] at hu; exact hu
    · rename_i c1 k op he
      rw [he] at hu
      rw [hfin]
      exact ⟨hu.1.insertPcsKey _ _, hu.2⟩
  · split
    · exact ⟨hc, Grow.refl _⟩
    · rename_i c1 k hr
      obtain ⟨h1, _, g1⟩ := hc.treeRoot hr
      split
      · rw [hfin]; exact ⟨h1, g1⟩
      · split
        · rw [hfin]; exact ⟨h1, g1⟩
        · rw [hfin]; exact ⟨h1.insertPcsKey _ _, g1⟩

theorem apply_sks {H : SOp → Nat} {c c' : Cgka} {op : SOp} (h : c.applyOperation H op = .ok c') :
    c'.ownerSks = c.ownerSks := by
  unfold Cgka.applyOperation at h
  split at h
  · cases h; rfl
  · simp only [bind, Except.bind] at h
    split at h
    · simp at h
    · cases h; rfl

theorem Clean.addOp {H : SOp → Nat} {c c' : Cgka} {op : SOp} (hc : Clean c) (ho : op.True)
    (hk : c'.ownerSks = c.ownerSks) (ht : c'.tree = c.tree) (hg : c'.graph = c.graph.addOp H op op.payload.preds) :
    Clean c' := by
  refine ⟨by rw [hk]; exact hc.keys, by rw [ht]; exact hc.tree, ?_⟩
  intro x o hx
  rw [hg] at hx
  change AMap.get (AMap.insert c.graph.ops (H op) op) x = some o at hx
  rw [AMap.get_insert] at hx
  split at hx
  · cases hx; exact ho
  · exact hc.ops x o hx

theorem Clean.receive {H : SOp → Nat} {c : Cgka} (hc : Clean c) (hs : SInv H c) {op : SOp} (ho : op.True) :
    Clean (c.mergeConcurrentOperation H op).1 ∧ Grow c.ownerSks (c.mergeConcurrentOperation H op).1.ownerSks := by
  unfold Cgka.mergeConcurrentOperation
  split
  · exact ⟨hc, Grow.refl _⟩
  · split
    · exact ⟨hc, Grow.refl _⟩
    · split
      · split
        · exact ⟨hc.addOp ho rfl rfl rfl, Grow.refl _⟩
        · split
          · exact ⟨hc.addOp ho rfl rfl rfl, Grow.refl _⟩
          · split
            · exact ⟨hc, Grow.refl _⟩
            · rename_i c1 h1
              exact ⟨hc.apply ho h1, by rw [apply_sks h1]; exact Grow.refl _⟩
      · split
        · exact ⟨hc, Grow.refl _⟩
        · rename_i c1 hr
          obtain ⟨h1, g1⟩ := hc.replay hs hr
          split
          · exact ⟨h1, g1⟩
          · rename_i c2 h2
            exact ⟨h1.apply ho h2, by rw [apply_sks h2]; exact g1⟩

theorem own_clean {H : SOp → Nat} {c : Cgka} (hc : Clean c) (hs : SInv H c) {cmd : Cmd} (ho : cmd.Own) (hg : cmd.Signs) :
    Clean (step H c cmd) ∧ Grow c.ownerSks (step H c cmd).ownerSks := by
  cases cmd with
  | add sign id pk => exact hc.add hg hs id pk
  | remove sign id => exact hc.remove hg hs id
  | update sign g n sk => exact hc.update hg hs g n sk
  | encrypt sign g n r ps => exact hc.encrypt hg hs g n r ps
  | decrypt e => exact hc.decrypt e
  | receive op => exact ho.elim

theorem trusted_clean {H : SOp → Nat} (hH : Function.Injective H) {c : Cgka} (h : Trusted H c) : Clean c := by
  induction h with
  | new h1 h2 => exact Clean.new h1 h2
  | owner me sks _ hk ih => exact ⟨hk, ih.tree, ih.ops⟩
  | call ht ho hg ih => exact (own_clean ih (reachOk_inv hH (trusted_ok ht)) ho hg).1
  | receive ht _ hop ih ih2 => exact (ih.receive (reachOk_inv hH (trusted_ok ht)) (ih2.ops _ _ hop)).1

end Verif.Cgka
