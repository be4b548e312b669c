import Verif.Cgka.Model

/-! # Which errors the work on a key tree can end in: none of those that say something has not been received -/

namespace Verif.Cgka

open Verif.BeeKem

/-- Errors that tell of something not yet received, apart from `IdentifierNotFound`, which has other causes too. -/
def waits : CgkaError → Bool
  | .notInitialized => true
  | .unexpectedInitialOperation => true
  | .unexpectedInviteOperation => true
  | .outOfOrderOperation => true
  | _ => false

/-- If the computation fails, then not with such an error. -/
def Soft {α : Type} (r : Res α) : Prop := ∀ e, r = .error e → waits e = false

theorem Soft.ok {α : Type} (a : α) : Soft (.ok a : Res α) := by intro e h; cases h
theorem Soft.pure {α : Type} (a : α) : Soft (Pure.pure a : Res α) := by intro e h; cases h
theorem Soft.err {α : Type} {e : CgkaError} (h : waits e = false) : Soft (.error e : Res α) := by
  intro e' h'; cases h'; exact h
theorem Soft.bind {α β : Type} {r : Res α} {f : α → Res β} (hr : Soft r) (hf : ∀ a, Soft (f a)) : Soft (r >>= f) := by
  intro e h
  cases r with
  | error e' => cases h; exact hr e rfl
  | ok a => exact hf a e h

/-- Goes through a definition, branch by branch. -/
macro "soft" : tactic => `(tactic| repeat' (first
  | exact Soft.ok _
  | exact Soft.pure _
  | exact Soft.err rfl
  | refine Soft.bind ?_ (fun _ => ?_)
  | split))

open BeeKem

theorem soft_leaf (t : BeeKem) (i : Nat) : Soft (t.leaf i) := by unfold leaf; soft
theorem soft_innerNode (t : BeeKem) (i : Nat) : Soft (t.innerNode i) := by unfold innerNode; soft
theorem soft_insertLeafAt (t : BeeKem) (i : Nat) (id : MemberId) (pk : NodeKey) : Soft (t.insertLeafAt i id pk) := by
  unfold insertLeafAt; soft
theorem soft_insertInnerNodeAt (t : BeeKem) (i : Nat) (s : SecretStore) : Soft (t.insertInnerNodeAt i s) := by
  unfold insertInnerNodeAt; soft
theorem soft_blankInnerNode (t : BeeKem) (i : Nat) : Soft (t.blankInnerNode i) := by unfold blankInnerNode; soft
theorem soft_blankLeaf (t : BeeKem) (i : Nat) : Soft (t.blankLeaf i) := by unfold blankLeaf; soft

theorem soft_blankPathLoop : ∀ (n : Nat) (t : BeeKem) (i : Nat), Soft (blankPathLoop n t i) := by
  intro n
  induction n with
  | zero => intro t i; exact Soft.err rfl
  | succ n ih =>
    intro t i
    unfold blankPathLoop
    split
    · exact soft_blankInnerNode _ _
    · exact Soft.bind (soft_blankInnerNode _ _) (fun _ => ih _ _)

theorem soft_blankPath (t : BeeKem) (i : Nat) : Soft (t.blankPath i) := soft_blankPathLoop _ _ _
theorem soft_blankLeafAndPath (t : BeeKem) (i : Nat) : Soft (t.blankLeafAndPath i) :=
  Soft.bind (soft_blankLeaf _ _) (fun _ => soft_blankPath _ _)
theorem soft_pushLeaf (t : BeeKem) (id : MemberId) (pk : NodeKey) : Soft (t.pushLeaf id pk) :=
  Soft.bind (soft_insertLeafAt _ _ _ _) (fun _ => Soft.bind (soft_blankPath _ _) (fun _ => Soft.pure _))
theorem soft_new (id : MemberId) (pk : Pk) : Soft (BeeKem.new id pk) := Soft.bind (soft_pushLeaf _ _ _) (fun _ => Soft.pure _)
theorem soft_leafIndexForId (t : BeeKem) (id : MemberId) : Soft (t.leafIndexForId id) := by unfold leafIndexForId; soft
theorem soft_ofSlice : ∀ l : List Pk, Soft (NodeKey.ofSlice l)
  | [] => Soft.err rfl
  | [_] => Soft.ok _
  | _ :: _ :: _ => Soft.ok _
theorem soft_nodeKey (s : SecretStore) : Soft s.nodeKey := soft_ofSlice _
theorem soft_merge (a b : NodeKey) (l : List Pk) : Soft (a.merge b l) := by
  unfold NodeKey.merge
  split
  · split
    · exact Soft.ok _
    · exact soft_ofSlice _
  · exact soft_ofSlice _
theorem soft_nodeKeyForIndex (t : BeeKem) (i : TreeMath.TreeNodeIndex) : Soft (t.nodeKeyForIndex i) := by
  unfold nodeKeyForIndex
  split
  · refine Soft.bind (soft_leaf _ _) (fun _ => ?_); soft
  · refine Soft.bind (soft_innerNode _ _) (fun _ => ?_)
    split
    · exact Soft.err rfl
    · exact soft_nodeKey _
theorem soft_directPathRes (t : BeeKem) (i : Nat) : Soft (t.directPathRes i) := by unfold directPathRes; soft
theorem soft_innerKeys (t : BeeKem) (i : Nat) : Soft (t.innerKeys i) := by
  unfold innerKeys
  refine Soft.bind (soft_innerNode _ _) (fun _ => ?_)
  split
  · exact Soft.pure _
  · exact Soft.bind (soft_nodeKey _) (fun _ => Soft.pure _)
theorem soft_collectKeys (t : BeeKem) : ∀ l : List Nat, Soft (t.collectKeys l)
  | [] => Soft.ok _
  | _ :: l => Soft.bind (soft_innerKeys _ _) (fun _ => Soft.bind (soft_collectKeys t l) (fun _ => Soft.pure _))
theorem soft_dropTombstones : ∀ (n : Nat) (t : BeeKem), Soft (dropTombstones n t) := by
  intro n
  induction n with
  | zero => intro t; exact Soft.err rfl
  | succ n ih =>
    intro t
    unfold dropTombstones
    split
    · exact Soft.err rfl
    · refine Soft.bind (soft_leaf _ _) (fun _ => ?_)
      split
      · exact Soft.ok _
      · exact Soft.bind (soft_blankPath _ _) (fun _ => ih _)
theorem soft_removeId (t : BeeKem) (id : MemberId) : Soft (t.removeId id) := by
  unfold removeId
  split
  · exact Soft.err rfl
  · exact Soft.bind (soft_leafIndexForId _ _) (fun _ => Soft.bind (soft_directPathRes _ _) (fun _ => Soft.bind (soft_collectKeys _ _) (fun _ =>
      Soft.bind (soft_blankLeafAndPath _ _) (fun _ => Soft.bind (soft_dropTombstones _ _) (fun _ => Soft.pure _)))))
theorem soft_blankRemoved : ∀ (l : List (MemberId × Nat)) (t : BeeKem), Soft (t.blankRemoved l)
  | [], _ => Soft.ok _
  | _ :: l, _ => Soft.bind (soft_blankLeafAndPath _ _) (fun _ => soft_blankRemoved l _)
theorem soft_popLeaves : ∀ (n : Nat) (t : BeeKem) (l : List MemberId) (acc : List LeafNode), Soft (popLeaves n t l acc) := by
  intro n
  induction n with
  | zero => intro t l acc; exact Soft.ok _
  | succ n ih =>
    intro t l acc
    unfold popLeaves
    split
    · exact Soft.ok _
    · refine Soft.bind (Soft.bind (soft_leaf _ _) (fun _ => ?_)) (fun _ => Soft.bind (soft_blankLeafAndPath _ _) (fun _ => ih _ _ _))
      split <;> exact Soft.pure _
theorem soft_pushAll : ∀ (l : List LeafNode) (t : BeeKem), Soft (t.pushAll l)
  | [], _ => Soft.ok _
  | _ :: l, _ => Soft.bind (soft_pushLeaf _ _ _) (fun _ => soft_pushAll l _)
theorem soft_sortLeaves (t : BeeKem) (a : List MemberId) (r : List (MemberId × Nat)) : Soft (t.sortLeavesAndBlankPaths a r) :=
  Soft.bind (soft_blankRemoved _ _) (fun _ => Soft.bind (soft_popLeaves _ _ _ _) (fun _ => soft_pushAll _ _))
theorem soft_hasRootKey (t : BeeKem) : Soft t.hasRootKey := by
  unfold hasRootKey
  split
  · exact Soft.err rfl
  · refine Soft.bind (soft_innerNode _ _) (fun _ => ?_)
    split <;> exact Soft.pure _
theorem soft_shouldSkip (t : BeeKem) (i : TreeMath.TreeNodeIndex) : Soft (t.shouldSkip i) := by
  unfold shouldSkip
  split
  · exact Soft.bind (soft_leaf _ _) (fun _ => Soft.pure _)
  · refine Soft.bind (soft_innerNode _ _) (fun _ => ?_)
    split <;> exact Soft.pure _
theorem soft_isValidPath (t : BeeKem) (p : PathChange) : Soft (t.isValidPath p) :=
  Soft.bind (soft_leafIndexForId _ _) (fun _ => Soft.bind (soft_directPathRes _ _) (fun _ => Soft.pure _))
theorem soft_applyPathLoop (r : List Pk) : ∀ (l : List (Nat × SecretStore)) (t : BeeKem), Soft (applyPathLoop r t l)
  | [], _ => Soft.ok _
  | (_, _) :: l, _ => Soft.bind (Soft.bind (soft_innerNode _ _) (fun _ => by split <;> exact soft_insertInnerNodeAt _ _ _))
      (fun _ => soft_applyPathLoop r l _)
theorem soft_applyPath (t : BeeKem) (p : PathChange) : Soft (t.applyPath p) := by
  unfold applyPath
  split
  · refine Soft.bind (soft_leafIndexForId _ _) (fun _ => Soft.bind (soft_isValidPath _ _) (fun _ => Soft.bind (soft_leaf _ _) (fun _ => ?_)))
    split
    · exact Soft.err rfl
    · refine Soft.bind (soft_merge _ _ _) (fun _ => Soft.bind (soft_insertLeafAt _ _ _ _) (fun _ => ?_))
      split
      · exact soft_applyPathLoop _ _ _
      · exact soft_blankPath _ _
  · exact Soft.ok _
theorem soft_tryDecrypt (k : SymKey) (e : EncryptedSecret) : Soft (tryDecrypt k e) := by unfold tryDecrypt; soft
theorem soft_decryptSecret (s : SecretStore) (k : NodeKey) (sks : ShareKeyMap) (seen : List TreeMath.TreeNodeIndex) :
    Soft (s.decryptSecret k sks seen) := by
  unfold SecretStore.decryptSecret
  split
  · exact Soft.err rfl
  · split
    · exact Soft.err rfl
    · unfold SecretStoreVersion.decryptSecret
      split
      · exact Soft.err rfl
      · split
        · exact Soft.err rfl
        · split
          · split
            · exact Soft.err rfl
            · exact soft_tryDecrypt _ _
          · unfold tryDecryptEncryption
            split
            · exact Soft.err rfl
            · exact soft_tryDecrypt _ _
theorem soft_maybeDecrypt (t : BeeKem) (i : TreeMath.TreeNodeIndex) (k : NodeKey) (seen : List TreeMath.TreeNodeIndex) (sks : ShareKeyMap) :
    Soft (t.maybeDecryptParentKey i k seen sks) := by
  unfold maybeDecryptParentKey
  refine Soft.bind (soft_innerNode _ _) (fun _ => ?_)
  split
  · exact Soft.pure _
  · refine Soft.bind (soft_nodeKey _) (fun _ => ?_)
    split
    · exact Soft.pure _
    · split
      · exact Soft.pure _
      · exact Soft.bind (soft_decryptSecret _ _ _ _) (fun _ => Soft.pure _)
theorem soft_skipLoop (t : BeeKem) : ∀ (n : Nat) (i : TreeMath.TreeNodeIndex), Soft (t.skipLoop n i) := by
  intro n
  induction n with
  | zero => intro i; exact Soft.err rfl
  | succ n ih =>
    intro i
    unfold skipLoop
    refine Soft.bind (soft_shouldSkip _ _) (fun _ => ?_)
    split
    · exact ih _
    · exact Soft.pure _
theorem soft_decryptStep (t : BeeKem) (s : DecState) : Soft (t.decryptStep s) := by
  unfold decryptStep
  refine Soft.bind (soft_skipLoop _ _ _) (fun _ => Soft.bind (soft_maybeDecrypt _ _ _ _ _) (fun x => ?_))
  obtain ⟨sks, r⟩ := x
  cases r with
  | none => exact Soft.err rfl
  | some _ => exact Soft.bind (soft_nodeKeyForIndex _ _) (fun _ => Soft.pure _)
theorem soft_decryptLoop (t : BeeKem) : ∀ (n : Nat) (s : DecState), Soft (t.decryptLoop n s) := by
  intro n
  induction n with
  | zero => intro s; exact Soft.err rfl
  | succ n ih =>
    intro s
    unfold decryptLoop
    split
    · exact Soft.ok _
    · exact Soft.bind (soft_decryptStep _ _) (fun _ => ih _)
theorem soft_decryptTreeSecret (t : BeeKem) (o : MemberId) (sks : ShareKeyMap) : Soft (t.decryptTreeSecret o sks) := by
  unfold decryptTreeSecret
  extract_lets jp
  have hjp : ∀ i, Soft (jp i) := by
    intro i
    refine Soft.bind (soft_hasRootKey _) (fun b => ?_)
    cases b with
    | false => exact Soft.err rfl
    | true =>
      refine Soft.bind (soft_leaf _ _) (fun l => ?_)
      cases l with
      | none => exact Soft.err rfl
      | some l =>
        refine Soft.bind (soft_decryptLoop _ _ _) (fun s => ?_)
        split
        · exact Soft.err rfl
        · exact Soft.pure _
  split
  · exact Soft.bind (Soft.pure _) hjp
  · exact Soft.bind (soft_leafIndexForId _ _) hjp
  · rename_i he
    exact Soft.bind (Soft.err (soft_leafIndexForId _ _ _ he)) hjp

namespace Graph

theorem soft_scanLoop (g : Graph) : ∀ (n : Nat) (s : Scan), Soft (g.scanLoop n s) := by
  intro n
  induction n with
  | zero => intro s; exact Soft.err rfl
  | succ n ih =>
    intro s
    unfold scanLoop
    split
    · exact Soft.ok _
    · split
      · exact Soft.err rfl
      · exact ih _
theorem soft_round (s : Rounds) : Soft (round s) := by
  unfold round
  dsimp only
  split
  · exact Soft.err rfl
  · split <;> exact Soft.ok _
theorem soft_roundLoop : ∀ (n : Nat) (s : Rounds), Soft (roundLoop n s) := by
  intro n
  induction n with
  | zero => intro s; exact Soft.err rfl
  | succ n ih =>
    intro s
    unfold roundLoop
    split
    · exact Soft.ok _
    · exact Soft.bind (soft_round _) (fun _ => ih _)
theorem soft_lookupAll (g : Graph) {e : CgkaError} (he : waits e = false) : ∀ l : List Nat, Soft (g.lookupAll e l)
  | [] => Soft.ok _
  | _ :: l => by
    unfold lookupAll
    split
    · exact Soft.err he
    · exact Soft.bind (soft_lookupAll g he l) (fun _ => Soft.pure _)
theorem soft_lookupEpochs (g : Graph) : ∀ l : List (List Nat), Soft (g.lookupEpochs l)
  | [] => Soft.ok _
  | _ :: l => Soft.bind (soft_lookupAll g rfl _) (fun _ => Soft.bind (soft_lookupEpochs g l) (fun _ => Soft.pure _))
theorem soft_sortHashes (g : Graph) (hs : List Nat) : Soft (g.sortHashes hs) := by
  unfold sortHashes
  refine Soft.bind (soft_scanLoop _ _ _) (fun _ => ?_)
  split
  · split
    · exact Soft.err rfl
    · exact Soft.pure _
  · exact Soft.bind (soft_roundLoop _ _) (fun _ => Soft.pure _)
theorem soft_topsortGraph (g : Graph) : Soft g.topsortGraph := Soft.bind (soft_sortHashes _ _) (fun _ => soft_lookupEpochs _ _)

end Graph

namespace Cgka

theorem soft_applyOperation (H : SOp → Nat) (c : Cgka) (op : SOp) : Soft (c.applyOperation H op) := by
  unfold applyOperation
  split
  · exact Soft.ok _
  · refine Soft.bind ?_ (fun _ => Soft.pure _)
    split
    · exact Soft.bind (soft_pushLeaf _ _ _) (fun _ => Soft.pure _)
    · exact Soft.bind (soft_removeId _ _) (fun _ => Soft.pure _)
    · exact soft_applyPath _ _
theorem soft_applyOps (H : SOp → Nat) : ∀ (l : List SOp) (c : Cgka), Soft (c.applyOps H l)
  | [], _ => Soft.ok _
  | _ :: l, _ => Soft.bind (soft_applyOperation _ _ _) (fun _ => soft_applyOps H l _)
theorem soft_applyEpoch (H : SOp → Nat) (c : Cgka) (l : List SOp) : Soft (c.applyEpoch H l) := by
  unfold applyEpoch
  split
  · exact soft_applyOps _ _ _
  · exact Soft.bind (soft_applyOps _ _ _) (fun _ => Soft.bind (soft_sortLeaves _ _ _) (fun _ => Soft.pure _))
theorem soft_applyEpochs (H : SOp → Nat) : ∀ (l : List (List SOp)) (c : Cgka), Soft (c.applyEpochs H l)
  | [], _ => Soft.ok _
  | _ :: l, _ => Soft.bind (soft_applyEpoch _ _ _) (fun _ => soft_applyEpochs H l _)
theorem soft_newFromInitAdd (H : SOp → Nat) (id : MemberId) (pk : Pk) (op : SOp) : Soft (newFromInitAdd H id pk op) :=
  Soft.bind (soft_new _ _) (fun _ => Soft.pure _)
theorem soft_hasPcsKey (c : Cgka) : Soft c.hasPcsKey := Soft.bind (soft_hasRootKey _) (fun _ => Soft.pure _)
theorem soft_pcsKeyFromTreeRoot (c : Cgka) : Soft c.pcsKeyFromTreeRoot := by
  unfold pcsKeyFromTreeRoot
  split
  · exact Soft.ok _
  · rename_i e he
    have := soft_decryptTreeSecret _ _ _ _ he
    split
    · exact Soft.err this
    · split
      · exact Soft.bind (soft_decryptTreeSecret _ _ _) (fun _ => Soft.pure _)
      · exact Soft.err this
theorem soft_replayIfNeeded (H : SOp → Nat) (c : Cgka) : Soft (c.replayIfNeeded H) := by
  unfold replayIfNeeded
  split
  · refine Soft.bind (Graph.soft_topsortGraph _) (fun _ => Soft.bind ?_ (fun _ => Soft.pure _))
    unfold rebuildCgka
    refine Soft.bind (Soft.bind (soft_newFromInitAdd _ _ _ _) (fun _ => Soft.pure _)) (fun _ => Soft.bind (soft_applyEpochs _ _ _) (fun _ =>
      Soft.bind (soft_hasPcsKey _) (fun _ => ?_)))
    split
    · refine Soft.bind (soft_pcsKeyFromTreeRoot _) (fun _ => Soft.bind ?_ (fun _ => Soft.pure _))
      unfold lastHash
      split
      · exact Soft.ok _
      · exact Soft.err rfl
    · exact Soft.pure _
  · exact Soft.ok _

/-- An operation is reported as out of order exactly if it is new and one of its predecessors has not been received; the other
errors that tell of something missing do not occur. -/
theorem merge_waits (H : SOp → Nat) (c : Cgka) (op : SOp) :
    (∀ e, (c.mergeConcurrentOperation H op).2 = .error e → waits e = true →
      e = .outOfOrderOperation ∧ c.graph.containsPredecessors op.payload.preds = false) ∧
    (c.graph.containsOpHash (H op) = false → c.graph.containsPredecessors op.payload.preds = false →
      (c.mergeConcurrentOperation H op).2 = .error .outOfOrderOperation) := by
  unfold mergeConcurrentOperation
  refine ⟨fun e h hw => ?_, fun h1 h2 => by simp [h1, h2]⟩
  split at h
  · cases h
  · split at h
    · rename_i hp
      cases h
      exact ⟨rfl, by simpa using hp⟩
    · split at h
      · split at h
        · cases h
        · split at h
          · cases h
          · split at h
            · rename_i e' he
              cases h
              rw [soft_applyOperation _ _ _ _ he] at hw
              cases hw
            · cases h
      · split at h
        · rename_i e' he
          cases h
          rw [soft_replayIfNeeded _ _ _ he] at hw
          cases hw
        · split at h
          · rename_i e' he
            cases h
            rw [soft_applyOperation _ _ _ _ he] at hw
            cases hw
          · cases h

end Cgka

end Verif.Cgka
