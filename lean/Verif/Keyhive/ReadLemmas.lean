import Verif.Keyhive.KeptSpec
import Verif.Cgka.StepInv

/-! # Which key the group-key layer finds for content -/

namespace Verif.Keyhive

open Verif.Group Verif.Cgka Verif.BeeKem

/-- What the group-key layer does with the content. -/
theorem key_for {H : SOp → Nat} {c : Cgka} (hc : Coh c) (e : EncContent) {c' : Cgka} {key : AppKey} (h : c.decryptionKeyFor H e = (c', .ok key)) :
    key.contentRef = e.contentRef ∧ key.predRefs = e.predRefs ∧ AMap.get c'.pcsKeys ⟨key.pcs⟩ = some key.pcs := by
  have hx := Ext.fromHashes H c e.pcsKeyHash e.pcsUpdateOpHash
  unfold Cgka.decryptionKeyFor at h
  split at h
  · cases h
  · rename_i c1 s he
    rw [he] at hx
    simp only [Prod.mk.injEq, Except.ok.injEq] at h
    obtain ⟨h1, h2⟩ := h
    subst h2
    refine ⟨rfl, rfl, ?_⟩
    show AMap.get c'.pcsKeys ⟨s⟩ = some s
    subst h1
    split
    · rename_i hcont
      -- the named secret is held: which one was found?
      unfold Cgka.pcsKeyFromHashes at he
      split at he
      · rename_i s' hs
        cases he
        have := hc.val _ _ hs
        rw [this] at hs
        exact hs
      · rename_i hnone
        split at he
        · cases he
        · rename_i c2 s' hroot
          cases he
          have hh : e.pcsKeyHash = ⟨s⟩ := by
            unfold Cgka.currentRootFor at hroot
            split at hroot
            · cases hroot
            · cases hroot
            · split at hroot
              · split at hroot <;> cases hroot
              · simp only [Prod.mk.injEq, Except.ok.injEq] at hroot
                obtain ⟨-, h3⟩ := hroot
                split at h3
                · rename_i heq; cases h3; exact heq.symm
                · cases h3
          rw [AMap.contains_iff, AMap.mem_keys_iff] at hcont
          cases hg : AMap.get c1.pcsKeys e.pcsKeyHash with
          | none => exact absurd hg hcont
          | some x =>
            have := (hx.coh hc).val _ _ hg
            rw [hh] at this hg
            cases this
            exact hg
        · rename_i c2 hroot
          split at he
          · cases he
          · rename_i c3 s' hder
            cases he
            unfold Cgka.derivePcsKeyForOp at hder
            split at hder
            · cases hder
            · simp only [bind, Except.bind] at hder
              split at hder
              · cases hder
              · unfold Cgka.rebuildPcsKey at hder
                simp only [bind, Except.bind, pure, Except.pure] at hder
                repeat' (first | (cases hder; done) | split at hder)
                cases hder
                simp only [Cgka.insertPcsKey, AMap.get_insert_self]
    · simp only [Cgka.insertPcsKey, AMap.get_insert_self]

end Verif.Keyhive
