import Verif.Cgka.Spec
import Verif.Cgka.GraphInv

/-! # Helper lemmas: what each call does to the graph and to the derived secrets -/

namespace Verif.Cgka

open Verif.BeeKem

/-- Derived secrets are filed under their own digest, each with an update operation. -/
structure Coh (c : Cgka) : Prop where
  val : ∀ h k, AMap.get c.pcsKeys h = some k → h = ⟨k⟩
  ops : ∀ h, AMap.get c.pcsKeyOps h ≠ none ↔ AMap.get c.pcsKeys h ≠ none

/-- Nothing but secrets and the tree changed, and no derived secret was lost. -/
structure Ext (c c' : Cgka) : Prop where
  graph : c'.graph = c.graph
  orig : c'.originalMember = c.originalMember
  init : c'.initAddOp = c.initAddOp
  owner : c'.ownerId = c.ownerId
  coh : Coh c → Coh c'
  keep : ∀ h, AMap.get c.pcsKeys h ≠ none → AMap.get c'.pcsKeys h ≠ none

theorem Ext.refl (c : Cgka) : Ext c c := ⟨rfl, rfl, rfl, rfl, id, fun _ => id⟩

theorem Ext.trans {a b c : Cgka} (h : Ext a b) (h' : Ext b c) : Ext a c :=
  ⟨h'.graph.trans h.graph, h'.orig.trans h.orig, h'.init.trans h.init, h'.owner.trans h.owner,
    fun x => h'.coh (h.coh x), fun x hx => h'.keep x (h.keep x hx)⟩

/-- Changing only the tree, the share keys and the pending flag. -/
theorem Ext.of_eq {c c' : Cgka} (h1 : c'.graph = c.graph) (h2 : c'.originalMember = c.originalMember)
    (h3 : c'.initAddOp = c.initAddOp) (h4 : c'.ownerId = c.ownerId) (h5 : c'.pcsKeys = c.pcsKeys)
    (h6 : c'.pcsKeyOps = c.pcsKeyOps) : Ext c c' :=
  ⟨h1, h2, h3, h4, fun h => ⟨by rw [h5]; exact h.val, by rw [h5, h6]; exact h.ops⟩, by rw [h5]; exact fun _ => id⟩

theorem Ext.insertPcsKey (c : Cgka) (k : Sk) (op : Nat) : Ext c (c.insertPcsKey k op) := by
  refine ⟨rfl, rfl, rfl, rfl, ?_, ?_⟩
  · intro h
    refine ⟨?_, ?_⟩
    · intro x v hx
      simp only [Cgka.insertPcsKey, AMap.get_insert] at hx
      split at hx
      · rename_i he; cases hx; exact he
      · exact h.val x v hx
    · intro x
      simp only [Cgka.insertPcsKey, AMap.get_insert]
      by_cases hx : x = ⟨k⟩
      · simp [hx]
      · simp only [hx, if_false]; exact h.ops x
  · intro x hx
    simp only [Cgka.insertPcsKey, AMap.get_insert]
    split
    · simp
    · exact hx

theorem insertPcsKey_get (c : Cgka) (k : Sk) (op : Nat) :
    AMap.get (c.insertPcsKey k op).pcsKeys ⟨k⟩ = some k := by simp [Cgka.insertPcsKey]

theorem Ext.treeRoot {c c' : Cgka} {k : Sk} (h : c.pcsKeyFromTreeRoot = .ok (c', k)) : Ext c c' := by
  unfold Cgka.pcsKeyFromTreeRoot at h
  split at h
  · cases h; exact Ext.of_eq rfl rfl rfl rfl rfl rfl
  · split at h
    · simp at h
    · split at h
      · cases hd : c.tree.decryptTreeSecret MemberId.pub c.ownerSks with
        | error e => rw [hd] at h; simp [bind, Except.bind] at h
        | ok p =>
          rw [hd] at h
          simp only [bind, Except.bind, pure, Except.pure, Except.ok.injEq] at h
          cases h
          exact Ext.of_eq rfl rfl rfl rfl rfl rfl
      · simp at h

/-- Facts about states that only serve as rebuild targets. -/
theorem applyOperation_frame {H : SOp → Nat} {c c' : Cgka} {op : SOp} (h : c.applyOperation H op = .ok c') :
    c'.originalMember = c.originalMember ∧ c'.initAddOp = c.initAddOp ∧ c'.ownerId = c.ownerId ∧
    c'.pcsKeys = c.pcsKeys ∧ c'.pcsKeyOps = c.pcsKeyOps ∧ c'.pending = c.pending ∧ c'.ownerSks = c.ownerSks := by
  unfold Cgka.applyOperation at h
  split at h
  · cases h; exact ⟨rfl, rfl, rfl, rfl, rfl, rfl, rfl⟩
  · simp only [bind, Except.bind] at h
    split at h
    · simp at h
    · cases h; exact ⟨rfl, rfl, rfl, rfl, rfl, rfl, rfl⟩

theorem applyOps_frame {H : SOp → Nat} {l : List SOp} {c c' : Cgka} (h : c.applyOps H l = .ok c') :
    c'.originalMember = c.originalMember ∧ c'.initAddOp = c.initAddOp ∧ c'.ownerId = c.ownerId ∧
    c'.pcsKeys = c.pcsKeys ∧ c'.pcsKeyOps = c.pcsKeyOps ∧ c'.pending = c.pending ∧ c'.ownerSks = c.ownerSks := by
  induction l generalizing c with
  | nil => cases h; exact ⟨rfl, rfl, rfl, rfl, rfl, rfl, rfl⟩
  | cons o l ih =>
    simp only [Cgka.applyOps, bind, Except.bind] at h
    split at h
    · simp at h
    · rename_i c1 h1
      have := applyOperation_frame h1
      have := ih h
      simp_all

theorem applyEpoch_frame {H : SOp → Nat} {l : List SOp} {c c' : Cgka} (h : c.applyEpoch H l = .ok c') :
    c'.originalMember = c.originalMember ∧ c'.initAddOp = c.initAddOp ∧ c'.ownerId = c.ownerId ∧
    c'.pcsKeys = c.pcsKeys ∧ c'.pcsKeyOps = c.pcsKeyOps ∧ c'.pending = c.pending ∧ c'.ownerSks = c.ownerSks := by
  unfold Cgka.applyEpoch at h
  split at h
  · exact applyOps_frame h
  · simp only [bind, Except.bind] at h
    split at h
    · simp at h
    · rename_i c1 h1
      have := applyOps_frame h1
      split at h
      · simp at h
      · cases h
        simp_all

theorem applyEpochs_frame {H : SOp → Nat} {l : List (List SOp)} {c c' : Cgka} (h : c.applyEpochs H l = .ok c') :
    c'.originalMember = c.originalMember ∧ c'.initAddOp = c.initAddOp ∧ c'.ownerId = c.ownerId ∧
    c'.pcsKeys = c.pcsKeys ∧ c'.pcsKeyOps = c.pcsKeyOps ∧ c'.pending = c.pending ∧ c'.ownerSks = c.ownerSks := by
  induction l generalizing c with
  | nil => cases h; exact ⟨rfl, rfl, rfl, rfl, rfl, rfl, rfl⟩
  | cons o l ih =>
    simp only [Cgka.applyEpochs, bind, Except.bind] at h
    split at h
    · simp at h
    · rename_i c1 h1
      have := applyEpoch_frame h1
      have := ih h
      simp_all

theorem newFromInitAdd_frame {H : SOp → Nat} {id : MemberId} {pk : Pk} {op : SOp} {c : Cgka}
    (h : Cgka.newFromInitAdd H id pk op = .ok c) :
    c.graph = Graph.new.addLocalOp H op ∧ c.pcsKeys = [] ∧ c.pcsKeyOps = [] ∧ c.originalMember = (id, pk) ∧
    c.initAddOp = op ∧ c.pending = false ∧ c.ownerId = id ∧ c.ownerSks = [] ∧ BeeKem.new id pk = .ok c.tree := by
  unfold Cgka.newFromInitAdd at h
  simp only [bind, Except.bind] at h
  split at h
  · simp at h
  · rename_i t ht
    cases h
    exact ⟨rfl, rfl, rfl, rfl, rfl, rfl, rfl, rfl, ht⟩

theorem rebuildStart_frame {H : SOp → Nat} {c r : Cgka} (h : c.rebuildStart H = .ok r) :
    r.graph = Graph.new.addLocalOp H c.initAddOp ∧ r.pcsKeys = [] ∧ r.pcsKeyOps = [] ∧
    r.ownerId = c.ownerId ∧ r.ownerSks = c.ownerSks ∧ r.pending = false ∧
    BeeKem.new c.originalMember.1 c.originalMember.2 = .ok r.tree := by
  unfold Cgka.rebuildStart at h
  simp only [bind, Except.bind] at h
  split at h
  · simp at h
  · rename_i r0 h0
    cases h
    have := newFromInitAdd_frame h0
    exact ⟨this.1, this.2.1, this.2.2.1, rfl, rfl, this.2.2.2.2.2.1, this.2.2.2.2.2.2.2.2⟩

theorem rebuildCgka_coh {H : SOp → Nat} {c r : Cgka} {es : List (List SOp)} (h : c.rebuildCgka H es = .ok r) :
    Coh r ∧ r.pending = false := by
  unfold Cgka.rebuildCgka at h
  simp only [bind, Except.bind] at h
  split at h
  · simp at h
  · rename_i r0 h0
    have hs := rebuildStart_frame h0
    split at h
    · simp at h
    · rename_i r1 h1
      have hf := applyEpochs_frame h1
      have hc1 : Coh r1 := by
        refine ⟨?_, ?_⟩
        · intro x k hx
          rw [hf.2.2.2.1, hs.2.1] at hx
          simp at hx
        · intro x
          rw [hf.2.2.2.1, hs.2.1, hf.2.2.2.2.1, hs.2.2.1]
      have hp1 : r1.pending = false := by rw [hf.2.2.2.2.2.1, hs.2.2.2.2.2.1]
      split at h
      · simp at h
      · split at h
        · split at h
          · simp at h
          · rename_i p hroot
            obtain ⟨r2, k⟩ := p
            have he := Ext.treeRoot hroot
            have hp2 : r2.pending = r1.pending := by
              unfold Cgka.pcsKeyFromTreeRoot at hroot
              split at hroot
              · cases hroot; rfl
              · split at hroot
                · simp at hroot
                · split at hroot
                  · simp only [bind, Except.bind] at hroot
                    split at hroot
                    · simp at hroot
                    · cases hroot; rfl
                  · simp at hroot
            split at h
            · simp at h
            · cases h
              exact ⟨(Ext.insertPcsKey r2 k _).coh (he.coh hc1), by
                show r2.pending = false
                rw [hp2, hp1]⟩
        · cases h; exact ⟨hc1, hp1⟩

theorem foldl_insert_get {K V : Type} [DecidableEq K] (l : List (K × V)) (m : AMap K V) (x : K) :
    (∀ v, AMap.get (l.foldl (fun acc p => AMap.insert acc p.1 p.2) m) x = some v →
      AMap.get m x = some v ∨ (x, v) ∈ l) ∧
    ((∃ v, (x, v) ∈ l) → AMap.get (l.foldl (fun acc p => AMap.insert acc p.1 p.2) m) x ≠ none) ∧
    (AMap.get m x ≠ none → AMap.get (l.foldl (fun acc p => AMap.insert acc p.1 p.2) m) x ≠ none) := by
  induction l generalizing m with
  | nil => exact ⟨fun v h => Or.inl h, by simp, id⟩
  | cons a l ih =>
    obtain ⟨i1, i2, i3⟩ := ih (AMap.insert m a.1 a.2)
    rw [List.foldl_cons]
    refine ⟨?_, ?_, ?_⟩
    · intro v hv
      rcases i1 v hv with h | h
      · rw [AMap.get_insert] at h
        split at h
        · rename_i hx
          cases h
          right
          simp [hx]
        · exact Or.inl h
      · exact Or.inr (List.mem_cons_of_mem _ h)
    · rintro ⟨v, hv⟩
      rcases List.mem_cons.1 hv with h | h
      · apply i3
        rw [AMap.get_insert, ← h]
        simp
      · exact i2 ⟨v, h⟩
    · intro hm
      apply i3
      rw [AMap.get_insert]
      split
      · simp
      · exact hm

theorem extendMap_keys {K V : Type} [DecidableEq K] (m o : AMap K V) (x : K) :
    AMap.get (Cgka.extendMap m o) x ≠ none ↔ AMap.get m x ≠ none ∨ AMap.get o x ≠ none := by
  obtain ⟨h1, h2, h3⟩ := foldl_insert_get o m x
  unfold Cgka.extendMap
  constructor
  · intro h
    cases hg : AMap.get (List.foldl (fun acc p => AMap.insert acc p.1 p.2) m o) x with
    | none => exact absurd hg h
    | some v =>
      rcases h1 v hg with h4 | h4
      · left; rw [h4]; simp
      · right
        rw [← AMap.mem_keys_iff]
        exact List.mem_map.2 ⟨_, h4, rfl⟩
  · rintro (h | h)
    · exact h3 h
    · apply h2
      cases hg : AMap.get o x with
      | none => exact absurd hg h
      | some v => exact ⟨v, AMap.mem_of_get hg⟩

theorem rebuildCgka_wf {H : SOp → Nat} {c r : Cgka} {es : List (List SOp)} (h : c.rebuildCgka H es = .ok r) :
    ∀ x v, (x, v) ∈ r.pcsKeys → x = (⟨v⟩ : PcsHash) := by
  unfold Cgka.rebuildCgka at h
  simp only [bind, Except.bind] at h
  split at h
  · simp at h
  · rename_i r0 h0
    have hs := rebuildStart_frame h0
    split at h
    · simp at h
    · rename_i r1 h1
      have hf := applyEpochs_frame h1
      have h1e : r1.pcsKeys = [] := by rw [hf.2.2.2.1, hs.2.1]
      split at h
      · simp at h
      · split at h
        · split at h
          · simp at h
          · rename_i p hroot
            obtain ⟨r2, k⟩ := p
            have h2e : r2.pcsKeys = [] := by
              unfold Cgka.pcsKeyFromTreeRoot at hroot
              split at hroot
              · cases hroot; exact h1e
              · split at hroot
                · simp at hroot
                · split at hroot
                  · simp only [bind, Except.bind] at hroot
                    split at hroot
                    · simp at hroot
                    · cases hroot; exact h1e
                  · simp at hroot
            split at h
            · simp at h
            · cases h
              intro x v hx
              simp only [Cgka.insertPcsKey, h2e, AMap.insert, AMap.erase] at hx
              simp at hx
              rw [hx.1, hx.2]
        · cases h
          intro x v hx
          rw [h1e] at hx; simp at hx

theorem Ext.replay {H : SOp → Nat} {c c' : Cgka} (h : c.replayOpsGraph H = .ok c') : Ext c c' := by
  unfold Cgka.replayOpsGraph at h
  simp only [bind, Except.bind] at h
  split at h
  · simp at h
  · rename_i es _
    split at h
    · simp at h
    · rename_i r hr
      cases h
      obtain ⟨hc, _⟩ := rebuildCgka_coh hr
      refine ⟨rfl, rfl, rfl, rfl, ?_, ?_⟩
      · intro h0
        refine ⟨?_, ?_⟩
        · intro x v hx
          rcases (foldl_insert_get r.pcsKeys c.pcsKeys x).1 v hx with h1 | h1
          · exact h0.val x v h1
          · exact rebuildCgka_wf hr x v h1
        · intro x
          simp only [Cgka.updateCgkaFrom, extendMap_keys, h0.ops, hc.ops]
      · intro x hx
        exact (foldl_insert_get r.pcsKeys c.pcsKeys x).2.2 hx

theorem Ext.replayIfNeeded {H : SOp → Nat} {c c' : Cgka} (h : c.replayIfNeeded H = .ok c') : Ext c c' := by
  unfold Cgka.replayIfNeeded at h
  split at h
  · exact Ext.replay h
  · cases h; exact Ext.refl c

theorem Ext.rebuildPcsKey {H : SOp → Nat} {c c' : Cgka} {es : List (List SOp)} {k : Sk}
    (h : c.rebuildPcsKey H es = .ok (c', k)) : Ext c c' ∧ AMap.get c'.pcsKeys ⟨k⟩ = some k := by
  unfold Cgka.rebuildPcsKey at h
  simp only [bind, Except.bind] at h
  split at h
  · simp at h
  · split at h
    · simp at h
    · split at h
      · simp at h
      · split at h
        · simp at h
        · cases h; exact ⟨Ext.insertPcsKey _ _ _, insertPcsKey_get _ _ _⟩

theorem Ext.derive {H : SOp → Nat} {c c' : Cgka} {o : Nat} {k : Sk}
    (h : c.derivePcsKeyForOp H o = .ok (c', k)) : Ext c c' ∧ AMap.get c'.pcsKeys ⟨k⟩ = some k := by
  unfold Cgka.derivePcsKeyForOp at h
  split at h
  · simp at h
  · simp only [bind, Except.bind] at h
    split at h
    · simp at h
    · exact Ext.rebuildPcsKey h

theorem Ext.currentRoot (c : Cgka) (h : PcsHash) : Ext c (c.currentRootFor h).1 := by
  unfold Cgka.currentRootFor
  split
  · exact Ext.refl c
  · exact Ext.refl c
  · split
    · split <;> exact Ext.refl c
    · rename_i c' k hr
      exact Ext.treeRoot hr

theorem Ext.fromHashes (H : SOp → Nat) (c : Cgka) (h : PcsHash) (o : Nat) : Ext c (c.pcsKeyFromHashes H h o).1 := by
  unfold Cgka.pcsKeyFromHashes
  split
  · exact Ext.refl c
  · have hx := Ext.currentRoot c h
    split
    · rename_i c1 e he; rw [he] at hx; exact hx
    · rename_i c1 e he; rw [he] at hx; exact hx
    · rename_i c1 he
      rw [he] at hx
      split
      · exact hx
      · rename_i c2 k hd
        exact hx.trans (Ext.derive hd).1

theorem Ext.decrypt (H : SOp → Nat) (c : Cgka) (e : EncContent) : Ext c (c.decryptionKeyFor H e).1 := by
  unfold Cgka.decryptionKeyFor
  have hx := Ext.fromHashes H c e.pcsKeyHash e.pcsUpdateOpHash
  split
  · rename_i c1 err he; rw [he] at hx; exact hx
  · rename_i c1 k he
    rw [he] at hx
    dsimp only
    split
    · exact hx
    · exact hx.trans (Ext.insertPcsKey _ _ _)

/-! ## Calls that change the graph -/

/-- How a call changes the graph: not at all, by an own operation on top of all heads, or by a received
operation whose predecessors are known. -/
inductive GStep (H : SOp → Nat) (g : Graph) : Graph → Prop where
  | same : GStep H g g
  | own {op : SOp} : (∀ x, x ∈ op.payload.preds ↔ x ∈ g.heads) →
      (op.payload.isAdd = true → ∀ x, x ∈ op.payload.addPreds ↔ x ∈ g.addHeads) → GStep H g (g.addLocalOp H op)
  | recv {op : SOp} : AMap.get g.ops (H op) = none → (∀ p ∈ op.payload.preds, AMap.get g.ops p ≠ none) →
      GStep H g (g.addOp H op op.payload.preds)

/-- Everything but the graph, as in `Ext`. -/
structure Ext' (c c' : Cgka) : Prop where
  orig : c'.originalMember = c.originalMember
  init : c'.initAddOp = c.initAddOp
  owner : c'.ownerId = c.ownerId
  coh : Coh c → Coh c'
  keep : ∀ h, AMap.get c.pcsKeys h ≠ none → AMap.get c'.pcsKeys h ≠ none

theorem Ext.weak {c c' : Cgka} (h : Ext c c') : Ext' c c' := ⟨h.orig, h.init, h.owner, h.coh, h.keep⟩

theorem Ext'.trans {a b c : Cgka} (h : Ext' a b) (h' : Ext' b c) : Ext' a c :=
  ⟨h'.orig.trans h.orig, h'.init.trans h.init, h'.owner.trans h.owner, fun x => h'.coh (h.coh x),
    fun x hx => h'.keep x (h.keep x hx)⟩

theorem Ext'.of_eq {c c' : Cgka} (h2 : c'.originalMember = c.originalMember)
    (h3 : c'.initAddOp = c.initAddOp) (h4 : c'.ownerId = c.ownerId) (h5 : c'.pcsKeys = c.pcsKeys)
    (h6 : c'.pcsKeyOps = c.pcsKeyOps) : Ext' c c' :=
  ⟨h2, h3, h4, fun h => ⟨by rw [h5]; exact h.val, by rw [h5, h6]; exact h.ops⟩, by rw [h5]; exact fun _ => id⟩

theorem containsOpHash_iff (g : Graph) (h : Nat) : g.containsOpHash h = true ↔ AMap.get g.ops h ≠ none := by
  unfold Graph.containsOpHash
  rw [AMap.contains_iff, AMap.mem_keys_iff]

theorem containsPredecessors_iff (g : Graph) (ps : List Nat) :
    g.containsPredecessors ps = true ↔ ∀ p ∈ ps, AMap.get g.ops p ≠ none := by
  unfold Graph.containsPredecessors
  rw [List.all_eq_true]
  refine forall_congr' fun p => forall_congr' fun _ => ?_
  rw [AMap.contains_iff, AMap.mem_keys_iff]

theorem applyOperation_graph {H : SOp → Nat} {c c' : Cgka} {op : SOp} (h : c.applyOperation H op = .ok c')
    (hf : AMap.get c.graph.ops (H op) = none) : c'.graph = c.graph.addOp H op op.payload.preds := by
  unfold Cgka.applyOperation at h
  rw [if_neg (by rw [containsOpHash_iff]; simp [hf])] at h
  simp only [bind, Except.bind] at h
  split at h
  · simp at h
  · cases h; rfl

theorem GStep.receive (H : SOp → Nat) (c : Cgka) (op : SOp) :
    GStep H c.graph (c.mergeConcurrentOperation H op).1.graph ∧ Ext' c (c.mergeConcurrentOperation H op).1 := by
  unfold Cgka.mergeConcurrentOperation
  by_cases h1 : c.graph.containsOpHash (H op) = true
  · rw [if_pos h1]; exact ⟨.same, (Ext.refl c).weak⟩
  · rw [if_neg h1]
    have hf : AMap.get c.graph.ops (H op) = none := by
      rw [containsOpHash_iff] at h1; simpa using h1
    by_cases h2 : c.graph.containsPredecessors op.payload.preds = true
    · have hk := (containsPredecessors_iff _ _).1 h2
      rw [if_neg (by simp [h2])]
      split
      · split
        · exact ⟨.recv hf hk, Ext'.of_eq rfl rfl rfl rfl rfl⟩
        · split
          · exact ⟨.recv hf hk, Ext'.of_eq rfl rfl rfl rfl rfl⟩
          · split
            · exact ⟨.same, (Ext.refl c).weak⟩
            · rename_i c1 ha
              obtain ⟨f1, f2, f3, f4, f5, _⟩ := applyOperation_frame ha
              refine ⟨?_, Ext'.of_eq f1 f2 f3 f4 f5⟩
              rw [applyOperation_graph ha hf]
              exact .recv hf hk
      · split
        · exact ⟨.same, (Ext.refl c).weak⟩
        · rename_i c1 hr
          have hx := Ext.replayIfNeeded hr
          split
          · simp only [hx.graph]
            exact ⟨.same, hx.weak⟩
          · rename_i c2 ha
            obtain ⟨f1, f2, f3, f4, f5, _⟩ := applyOperation_frame ha
            refine ⟨?_, hx.weak.trans (Ext'.of_eq f1 f2 f3 f4 f5)⟩
            rw [applyOperation_graph ha (by rw [hx.graph]; exact hf), hx.graph]
            exact .recv hf hk
    · rw [if_pos (by simp [h2])]
      exact ⟨.same, (Ext.refl c).weak⟩

theorem GStep.add {H : SOp → Nat} {sign : Payload → Res SOp} (hs : HonestSigner sign) (c : Cgka) (id : MemberId)
    (pk : Pk) : GStep H c.graph (c.add H sign id pk).1.graph ∧ Ext' c (c.add H sign id pk).1 := by
  unfold Cgka.add
  split
  · exact ⟨.same, (Ext.refl c).weak⟩
  · split
    · exact ⟨.same, (Ext.refl c).weak⟩
    · rename_i c1 hr
      have hx := Ext.replayIfNeeded hr
      split
      · simp only [hx.graph]; exact ⟨.same, hx.weak⟩
      · dsimp only
        split
        · simp only [hx.graph]; exact ⟨.same, hx.weak.trans (Ext'.of_eq rfl rfl rfl rfl rfl)⟩
        · rename_i op hop
          simp only [hx.graph]
          refine ⟨.own ?_ ?_, hx.weak.trans (Ext'.of_eq rfl rfl rfl rfl rfl)⟩
          · intro x
            rw [hs _ _ hop]
            simp [Payload.preds, mem_sextend, hx.graph]
          · intro _ x
            rw [hs _ _ hop]
            simp [Payload.addPreds, hx.graph]

theorem GStep.remove {H : SOp → Nat} {sign : Payload → Res SOp} (hs : HonestSigner sign) (c : Cgka) (id : MemberId) :
    GStep H c.graph (c.remove H sign id).1.graph ∧ Ext' c (c.remove H sign id).1 := by
  unfold Cgka.remove
  split
  · exact ⟨.same, (Ext.refl c).weak⟩
  · split
    · exact ⟨.same, (Ext.refl c).weak⟩
    · rename_i c1 hr
      have hx := Ext.replayIfNeeded hr
      split
      · simp only [hx.graph]; exact ⟨.same, hx.weak⟩
      · split
        · simp only [hx.graph]; exact ⟨.same, hx.weak⟩
        · dsimp only
          split
          · simp only [hx.graph]; exact ⟨.same, hx.weak.trans (Ext'.of_eq rfl rfl rfl rfl rfl)⟩
          · rename_i op hop
            simp only [hx.graph]
            refine ⟨.own ?_ ?_, hx.weak.trans (Ext'.of_eq rfl rfl rfl rfl rfl)⟩
            · intro x
              rw [hs _ _ hop]
              simp [Payload.preds, mem_sextend, hx.graph]
            · intro hc
              rw [hs _ _ hop] at hc
              simp [Payload.isAdd] at hc

theorem GStep.update {H : SOp → Nat} {sign : Payload → Res SOp} (hs : HonestSigner sign) (g : BeeKem.Gen) (n : Nat)
    (c : Cgka) (newSk : Sk) :
    GStep H c.graph (c.update H sign g n newSk).1.graph ∧ Ext' c (c.update H sign g n newSk).1 := by
  unfold Cgka.update
  split
  · exact ⟨.same, (Ext.refl c).weak⟩
  · rename_i c1 hr
    have hx := Ext.replayIfNeeded hr
    split
    · simp only [hx.graph]; exact ⟨.same, hx.weak⟩
    · dsimp only
      split
      · simp only [hx.graph]; exact ⟨.same, hx.weak.trans (Ext'.of_eq rfl rfl rfl rfl rfl)⟩
      · split
        · simp only [hx.graph]; exact ⟨.same, hx.weak.trans (Ext'.of_eq rfl rfl rfl rfl rfl)⟩
        · rename_i op hop
          simp only [Cgka.insertPcsKey, hx.graph]
          refine ⟨.own ?_ ?_, hx.weak.trans ((Ext.insertPcsKey c1 _ (H op)).weak.trans
            (Ext'.of_eq rfl rfl rfl rfl rfl))⟩
          · intro x
            rw [hs _ _ hop]
            simp [Payload.preds, mem_sextend, hx.graph]
          · intro hc
            rw [hs _ _ hop] at hc
            simp [Payload.isAdd] at hc

theorem GStep.encrypt {H : SOp → Nat} {sign : Payload → Res SOp} (hs : HonestSigner sign) (g : BeeKem.Gen) (n : Nat)
    (c : Cgka) (r ps : Nat) :
    GStep H c.graph (c.newAppSecretFor H sign g n r ps).1.graph ∧ Ext' c (c.newAppSecretFor H sign g n r ps).1 := by
  have hfin : ∀ (c : Cgka) (k : Sk) (op : Option SOp), (c.finishAppSecret k op r ps).1 = c := by
    intro c k op; unfold Cgka.finishAppSecret; split <;> rfl
  unfold Cgka.newAppSecretFor
  split
  · exact ⟨.same, (Ext.refl c).weak⟩
  · have hu := GStep.update (H := H) hs g (n + 1) c (g n)
    split
    · rename_i c1 e he; rw [he] at hu; exact hu
    · rename_i c1 k op he
      rw [he] at hu
      rw [hfin]
      exact ⟨hu.1, hu.2.trans (Ext.insertPcsKey _ _ _).weak⟩
  · split
    · exact ⟨.same, (Ext.refl c).weak⟩
    · rename_i c1 k hr
      have hx := Ext.treeRoot hr
      split
      · rw [hfin, hx.graph]; exact ⟨.same, hx.weak⟩
      · split
        · rw [hfin, hx.graph]; exact ⟨.same, hx.weak⟩
        · rw [hfin]
          have hy := hx.trans (Ext.insertPcsKey c1 k ‹Nat›)
          rw [hy.graph]
          exact ⟨.same, hy.weak⟩

theorem step_frame {H : SOp → Nat} (c : Cgka) (cmd : Cmd) (hc : cmd.Honest) :
    GStep H c.graph (step H c cmd).graph ∧ Ext' c (step H c cmd) := by
  cases cmd with
  | add sign id pk => exact GStep.add hc c id pk
  | remove sign id => exact GStep.remove hc c id
  | update sign g n sk => exact GStep.update hc g n c sk
  | encrypt sign g n r ps => exact GStep.encrypt hc g n c r ps
  | decrypt e =>
    have := Ext.decrypt H c e
    show GStep H c.graph (c.decryptionKeyFor H e).1.graph ∧ _
    rw [this.graph]
    exact ⟨.same, this.weak⟩
  | receive op => exact GStep.receive H c op

theorem GStep.inv {H : SOp → Nat} (hH : Function.Injective H) {g g' : Graph} (h : GInv H g) (hs : GStep H g g') :
    GInv H g' := by
  cases hs with
  | same => exact h
  | own hp _ => exact h.addLocalOp hH hp
  | recv hf hk => exact h.addOp hf hk

theorem First.preds {p : Payload} {id : MemberId} {pk : Pk} (h : First p id pk) : p.preds = [] := by
  obtain ⟨n, ps, rfl⟩ := h
  rfl

theorem First.unique {p : Payload} {id id' : MemberId} {pk pk' : Pk} (h : First p id pk) (h' : First p id' pk') : id = id' ∧ pk = pk' := by
  obtain ⟨n, ps, rfl⟩ := h
  obtain ⟨n', ps', h⟩ := h'
  cases h
  exact ⟨rfl, rfl⟩

theorem reach_inv {H : SOp → Nat} (hH : Function.Injective H) {c : Cgka} (h : Reach H c) :
    GInv H c.graph ∧ Coh c := by
  induction h with
  | new hp hn =>
    have hf := newFromInitAdd_frame hn
    refine ⟨?_, ?_⟩
    · rw [hf.1]
      exact GInv.new hp.preds
    · refine ⟨?_, ?_⟩
      · intro x k hx; rw [hf.2.1] at hx; simp at hx
      · intro x; rw [hf.2.1, hf.2.2.1]
  | owner me sks _ ih => exact ⟨ih.1, ⟨ih.2.val, ih.2.ops⟩⟩
  | call _ hc ih =>
    obtain ⟨h1, h2⟩ := step_frame (H := H) _ _ hc
    exact ⟨h1.inv hH ih.1, h2.coh ih.2⟩

end Verif.Cgka
