import Verif.Cgka.GainLemmas
import Verif.Cgka.FitInv
import Verif.Cgka.Props
import Verif.Cgka.SecrecyLemmas
import Verif.Cgka.TrustLemmas

/-! # Helper lemmas: the secret content is encrypted under was made by a recorded operation -/

namespace Verif.BeeKem.BeeKem

open TreeMath

theorem newStore_pk {t : BeeKem} {g : Gen} {c c' : Nat} {ci : TreeNodeIndex} {cpk ppk : Pk} {cs ps : Sk} {s : SecretStore}
    (h : t.encryptNewSecretStoreForParent g c ci cpk cs ppk ps = .ok (s, c')) : s.versions.map (·.pk) = [ppk] := by
  unfold encryptNewSecretStoreForParent at h
  simp only [bind, Except.bind] at h
  split at h
  · simp at h
  · split at h
    · cases h; rfl
    · split at h
      · simp at h
      · cases h; rfl

/-- The loop either ends with a key it put on the path, or does nothing. -/
theorem encryptLoop_made {g : Gen} {fuel : Nat} {s s' : EncState} (h : encryptLoop g fuel s = .ok s') :
    s'.tree.isRoot s'.childIdx = true ∧
      (s' = s ∨ s'.childSk ∈ s'.path.flatMap (fun q => q.2.versions.map (·.pk.of))) := by
  induction fuel generalizing s with
  | zero => simp [encryptLoop] at h
  | succ fuel ih =>
    unfold encryptLoop at h
    split at h
    · rename_i hr; cases h; exact ⟨hr, .inl rfl⟩
    · simp only [bind, Except.bind] at h
      split at h
      · simp at h
      · rename_i s1 h1
        obtain ⟨a, b⟩ := ih h
        refine ⟨a, .inr ?_⟩
        rcases b with rfl | b
        · unfold encryptStep at h1
          simp only [bind, Except.bind] at h1
          split at h1
          · simp at h1
          · split at h1
            · simp at h1
            · rename_i p hst
              obtain ⟨st, rng⟩ := p
              split at h1
              · simp at h1
              · cases h1
                have := newStore_pk hst
                simp only [List.flatMap_append, List.mem_append, List.flatMap_cons, List.flatMap_nil, List.append_nil]
                right
                rw [show (fun v : SecretStoreVersion => v.pk.of) = Pk.of ∘ (·.pk) from rfl, ← List.map_map, this]
                simp [shareKey]
        · exact b

theorem encryptPath_made {t t' : BeeKem} {h : Nat} (hf : Fit t h) {g : Gen} {c n : Nat} {id : MemberId} {pk : Pk}
    {sks sks' : ShareKeyMap} {k : Sk} {pc : PathChange} (he : t.encryptPath g c id pk sks = .ok (t', sks', n, k, pc)) :
    k ∈ pc.path.flatMap (fun q => q.2.versions.map (·.pk.of)) := by
  unfold encryptPath at he
  simp only [bind, Except.bind] at he
  split at he
  · simp at he
  · split at he
    · simp at he
    · split at he
      · simp at he
      · rename_i t1 ht1
        split at he
        · simp at he
        · split at he
          · simp at he
          · rename_i s hs
            cases he
            obtain ⟨a, b⟩ := encryptLoop_made hs
            rcases b with b | b
            · exfalso
              rw [b] at a
              have hsz : t1.treeSize = t.treeSize := (insertLeafAt_dims ht1).size
              unfold isRoot at a
              dsimp only at a
              obtain ⟨j, hj⟩ : ∃ j, h = j + 1 := ⟨h - 1, by have := hf.shape.pos; omega⟩
              rw [hsz, hf.shape.size, hj, root_eq] at a
              simp at a
            · exact b

/-- One key at an index is a key of the node there. -/
theorem root_made {t : BeeKem} {h : Nat} (hf : Fit t h) {Q : Sk → Prop} (hn : NodeKeys Q t) {k : Sk}
    (hk : t.nodeKeyForIndex (root t.treeSize) = .ok (.share ⟨k⟩)) : Q k := by
  obtain ⟨j, hj⟩ : ∃ j, h = j + 1 := ⟨h - 1, by have := hf.shape.pos; omega⟩
  rw [hf.shape.size, hj, root_eq] at hk
  unfold nodeKeyForIndex at hk
  simp only [bind, Except.bind] at hk
  split at hk
  · simp at hk
  · rename_i o ho
    split at hk
    · simp at hk
    · rename_i st
      have hm : some st ∈ t.innerNodes := by
        unfold innerNode at ho
        split at ho
        · simp at ho
        · rename_i hq; cases ho; exact List.mem_of_getElem? hq
      unfold SecretStore.nodeKey NodeKey.ofSlice at hk
      have := hn st hm
      split at hk
      · simp at hk
      · rename_i p hp
        obtain ⟨v, hv, he⟩ := List.map_eq_singleton_iff.1 hp
        cases hk
        have := this v (by rw [hv]; simp)
        rwa [he] at this
      · simp at hk

end Verif.BeeKem.BeeKem

namespace Verif.Cgka

open Verif.BeeKem

/-- Content is encrypted under a key that an operation of the writer's record put at a node of the tree. -/
theorem encrypt_made {H : SOp → Nat} (hH : Function.Injective H) {a a' : Cgka} (ha : Trusted H a)
    {sign : Payload → Res SOp} (hs : GoodSigner sign) {g : BeeKem.Gen} {n r ps : Nat} {s : AppSecret} {op : Option SOp}
    (he : a.newAppSecretFor H sign g n r ps = (a', .ok (s, op))) : Made a'.graph.ops s.key.pcs := by
  have hfin : ∀ (c : Cgka) (k : Sk) (o : Option SOp), c.finishAppSecret k o r ps = (a', .ok (s, op)) →
      a' = c ∧ s.key.pcs = k := by
    intro c k o hf
    unfold Cgka.finishAppSecret at hf
    split at hf
    · simp at hf
    · rename_i y hy
      simp only [Prod.mk.injEq, Except.ok.injEq] at hf
      exact ⟨hf.1.symm, by rw [← hf.2.1]; rfl⟩
  have hft := reach_fit (Props.reachOk_reach (trusted_ok ha))
  have sa := reachOk_inv hH (trusted_ok ha)
  unfold Cgka.newAppSecretFor at he
  split at he
  · simp at he
  · split at he
    · simp at he
    · rename_i c1 k o hq
      obtain ⟨rfl, hk⟩ := hfin _ _ _ he
      rw [hk]
      show Made c1.graph.ops k
      unfold Cgka.update at hq
      split at hq
      · simp at hq
      · rename_i c0 hr
        have hx := (Ext.replayIfNeeded hr).graph
        split at hq
        · simp at hq
        · dsimp only at hq
          split at hq
          · simp at hq
          · rename_i t sks n' k' pc henc
            obtain ⟨o', ho', hp'⟩ := hs (.update _ pc c0.graph.heads)
            rw [ho'] at hq
            simp only [Prod.mk.injEq, Except.ok.injEq] at hq
            obtain ⟨rfl, rfl, rfl⟩ := hq
            obtain ⟨h, hf⟩ := replayIfNeeded_fit hft hr
            refine ⟨H o', o', ?_, ?_⟩
            · show AMap.get (AMap.insert _ _ _) _ = _
              exact AMap.get_insert_self _ _ _
            · rw [hp']
              exact BeeKem.encryptPath_made hf henc
  · split at he
    · simp at he
    · rename_i c1 k hr
      have hg : c1.graph = a.graph ∧ c1.tree = a.tree := by
        have := (treeRoot_tg hr).1
        simp only [tg, Prod.mk.injEq] at this
        exact ⟨this.2, this.1⟩
      obtain ⟨h, hf⟩ := hft
      have hm := BeeKem.root_made hf (trusted_traced hH ha).tree.2 ((trusted_clean hH ha).treeRoot hr).2.1
      split at he
      · obtain ⟨rfl, hk⟩ := hfin _ _ _ he
        rw [hk, hg.1]; exact hm
      · split at he
        · obtain ⟨rfl, hk⟩ := hfin _ _ _ he
          rw [hk, hg.1]; exact hm
        · obtain ⟨rfl, hk⟩ := hfin _ _ _ he
          rw [hk]
          show Made c1.graph.ops k
          rw [hg.1]; exact hm

end Verif.Cgka
