import Verif.Keyhive.KeptSample
import Verif.Keyhive.KeptProps
import Verif.Keyhive.ReadSpec
import Verif.Keyhive.ReadLemmas

/-! # Properties of reading content -/

namespace Verif.Keyhive.ReadProps

open Verif.Group Verif.Cgka Verif.BeeKem Verif.Keyhive Verif.Keyhive.Sample

variable {E : Env}

/-! ## C96: reading -/

/-- C96: trying to read content changes nothing on the device but which secrets of this document are at hand. No operation is recorded or
forgotten, no agent, group, document, pending event or prekey secret changes, and no secret is lost, whatever the outcome. -/
theorem C96_only_keys (k : Keyhive) (did : Id) (e : EncContent) :
    (k.decryptContent E did e).1.reg = k.reg ∧ (k.decryptContent E did e).1.unlisted = k.unlisted ∧
    (k.decryptContent E did e).1.pairs = k.pairs ∧ (k.decryptContent E did e).1.pending = k.pending ∧
    (k.decryptContent E did e).1.dlgs = k.dlgs ∧ (k.decryptContent E did e).1.revs = k.revs ∧
    (k.decryptContent E did e).1.groups = k.groups ∧
    (∀ j, (AMap.get (k.decryptContent E did e).1.docs j).map (fun d => (d.group, d.heads)) = (AMap.get k.docs j).map (fun d => (d.group, d.heads))) ∧
    (∀ j, j ≠ did → AMap.get (k.decryptContent E did e).1.docs j = AMap.get k.docs j) ∧
    (∀ j op, HasKeyOp E (k.decryptContent E did e).1 j op ↔ HasKeyOp E k j op) := by
  unfold Keyhive.decryptContent
  cases hd : AMap.get k.docs did with
  | none => exact ⟨rfl, rfl, rfl, rfl, rfl, rfl, rfl, fun _ => rfl, fun _ _ => rfl, fun _ _ => Iff.rfl⟩
  | some d =>
    dsimp only
    have hg := fun j => get_setDoc (d := (d.decryptContent (E.hashCgka did) e).1) hd j
    have h1 : (d.decryptContent (E.hashCgka did) e).1.group = d.group ∧ (d.decryptContent (E.hashCgka did) e).1.heads = d.heads := by
      unfold Doc.decryptContent
      repeat' split
      all_goals exact ⟨rfl, rfl⟩
    have h2 : ∀ c, (d.decryptContent (E.hashCgka did) e).1.cgka = some c ↔ ∃ c0, d.cgka = some c0 ∧ (c0.decryptionKeyFor (E.hashCgka did) e).1 = c := by
      intro c
      unfold Doc.decryptContent
      split
      · rename_i hn; simp [hn]
      · rename_i c0 hc0
        rw [hc0]
        split
        · rename_i c' err hx; simp [hx]
        · rename_i c' key hx; simp [hx]
    refine ⟨rfl, rfl, rfl, rfl, rfl, rfl, rfl, fun j => ?_, fun j hj => ?_, fun j op => ?_⟩
    · rw [hg]
      split
      · rename_i hj; rw [hj, hd]; simp [h1]
      · rfl
    · rw [hg, if_neg hj]
    · unfold HasKeyOp
      rw [hg]
      by_cases hj : j = did
      · subst hj
        rw [if_pos rfl, hd]
        constructor
        · rintro ⟨d1, c, e1, e2, e3⟩
          cases e1
          obtain ⟨c0, f1, f2⟩ := (h2 c).1 e2
          refine ⟨d, c0, rfl, f1, ?_⟩
          rw [← f2, (Ext.decrypt (E.hashCgka j) c0 e).graph] at e3
          exact e3
        · rintro ⟨d1, c, e1, e2, e3⟩
          cases e1
          refine ⟨_, _, rfl, (h2 _).2 ⟨c, e2, rfl⟩, ?_⟩
          rw [(Ext.decrypt (E.hashCgka j) c e).graph]
          exact e3
      · rw [if_neg hj]

/-- C96: what reading gives is what was sealed, with a key for just this content and these predecessors, from a secret the device has; and
what fails to decrypt was sealed with another key than the one that the device derives for it. -/
theorem C96_result {k k' : Keyhive} (hk : Reach E k) {did : Id} (hH : Function.Injective (E.hashCgka did)) {e : EncContent}
    {r : Except Doc.DecryptErr (Nat × AppKey)} (h : k.decryptContent E did e = (k', r)) :
    (∀ p key, r = .ok (p, key) → e.sealedBy = key ∧ p = e.plain ∧ key.contentRef = e.contentRef ∧ key.predRefs = e.predRefs ∧
      HoldsSecret k' did key.pcs) ∧
    (r = .error .decryptionFailed → ∃ s, HoldsSecret k' did s ∧ e.sealedBy ≠ ⟨s, e.predRefs, e.contentRef⟩) := by
  unfold Keyhive.decryptContent at h
  split at h
  · cases h; exact ⟨fun p key h => (by cases h), fun h => (by cases h)⟩
  · rename_i d hd
    simp only [Prod.mk.injEq] at h
    obtain ⟨h1, h2⟩ := h
    have hk1 := get_setDoc (d := (d.decryptContent (E.hashCgka did) e).1) hd did
    rw [h1, if_pos rfl] at hk1
    unfold Doc.decryptContent at h2 hk1
    split at h2
    · cases h2; exact ⟨fun p key h => (by cases h), fun h => (by cases h)⟩
    · rename_i c hc
      split at h2
      · rename_i c' err _
        subst h2
        refine ⟨fun p key h => (by cases h), fun h => ?_⟩
        split at h <;> cases h
      · rename_i c' key' hdec
        simp only [hc, hdec] at hk1
        have hcoh := (reach_inv hH (doc_reach hk hd hc)).2
        obtain ⟨f1, f2, f3⟩ := key_for hcoh e hdec
        have hold : HoldsSecret k' did key'.pcs := ⟨_, c', hk1, rfl, f3⟩
        unfold EncContent.openWith at h2
        dsimp only at h2
        by_cases hs : key' = e.sealedBy
        · rw [if_pos hs] at h2
          subst h2
          refine ⟨fun p key hp => ?_, fun h => (by cases h)⟩
          cases hp
          exact ⟨hs.symm, rfl, f1, f2, hold⟩
        · rw [if_neg hs] at h2
          subst h2
          refine ⟨fun p key hp => (by cases hp), fun _ => ⟨key'.pcs, hold, fun hx => hs ?_⟩⟩
          rw [hx, ← f1, ← f2]

/-- C96: content under a secret that the device has is read if it was sealed with the key for this content, and otherwise refused as
tampered with. -/
theorem C96_held {k : Keyhive} {did : Id} {e : EncContent} {s : Sk}
    (hs : HoldsSecret k did s) (he : e.pcsKeyHash = ⟨s⟩) :
    (e.sealedBy = ⟨s, e.predRefs, e.contentRef⟩ → (k.decryptContent E did e).2 = .ok (e.plain, e.sealedBy)) ∧
    (e.sealedBy ≠ ⟨s, e.predRefs, e.contentRef⟩ → (k.decryptContent E did e).2 = .error .decryptionFailed) := by
  obtain ⟨d, c, hd, hc, hs⟩ := hs
  have hkey : (c.decryptionKeyFor (E.hashCgka did) e).2 = .ok ⟨s, e.predRefs, e.contentRef⟩ := by
    unfold Cgka.decryptionKeyFor Cgka.pcsKeyFromHashes
    rw [he, hs]
    rfl
  unfold Keyhive.decryptContent Doc.decryptContent
  simp only [hd, hc]
  generalize c.decryptionKeyFor (E.hashCgka did) e = z at hkey
  obtain ⟨c', y⟩ := z
  dsimp only at hkey
  subst hkey
  unfold EncContent.openWith
  dsimp only
  refine ⟨fun h => ?_, fun h => ?_⟩
  · rw [if_pos h.symm, h]
  · rw [if_neg (fun x => h x.symm)]

/-- C96: content of a document the device does not know, or has no key tree for, and content that names a secret and an operation the device
has not got, is reported as such. -/
theorem C96_unknown {k : Keyhive} {did : Id} {e : EncContent} :
    ((∀ d, AMap.get k.docs did = some d → d.cgka = none) → (k.decryptContent E did e).2 = .error .keyNotFound) ∧
    (∀ d c, AMap.get k.docs did = some d → d.cgka = some c → c.hasPcsKey = .ok false → AMap.get c.pcsKeys e.pcsKeyHash = none →
      AMap.get c.graph.ops e.pcsUpdateOpHash = none →
      (k.decryptContent E did e).2 = .error .keyNotFound ∧ ∀ j, AMap.get (k.decryptContent E did e).1.docs j = AMap.get k.docs j) := by
  constructor
  · intro h
    unfold Keyhive.decryptContent
    split
    · rfl
    · rename_i d hd
      unfold Doc.decryptContent
      rw [h d hd]
  · intro d c hd hc hp hs ho
    have hx : c.decryptionKeyFor (E.hashCgka did) e = (c, .error .unknownPcsKey) := by
      have : c.graph.containsOpHash e.pcsUpdateOpHash = false := by
        unfold Graph.containsOpHash AMap.contains
        rw [ho]; rfl
      unfold Cgka.decryptionKeyFor Cgka.pcsKeyFromHashes Cgka.currentRootFor Cgka.derivePcsKeyForOp
      simp only [hs, hp, this, Bool.not_false, if_true]
    have hr : d.decryptContent (E.hashCgka did) e = (d, .error .keyNotFound) := by
      unfold Doc.decryptContent
      simp only [hc, hx]
      rw [← hc]
      rfl
    unfold Keyhive.decryptContent
    simp only [hd, hr, true_and]
    intro j
    rw [get_setDoc hd j]
    split
    · rename_i hj; rw [hj, hd]
    · rfl

/-- Content that agent 5 has encrypted, the same with another plaintext reference, and content under an unknown operation. -/
example : Reach ER w2 ∧ Function.Injective (ER.hashCgka 300) ∧ HoldsSecret w2 300 701 ∧
    (w2.decryptContent ER 300 ⟨⟨701, 8, 7⟩, 42, ⟨701⟩, 2, 7, 8⟩).2 = .ok (42, ⟨701, 8, 7⟩) ∧
    (w2.decryptContent ER 300 ⟨⟨701, 8, 7⟩, 42, ⟨701⟩, 2, 9, 8⟩).2 = .error .decryptionFailed ∧
    (w2.decryptContent ER 301 ⟨⟨701, 8, 7⟩, 42, ⟨701⟩, 2, 7, 8⟩).2 = .error .keyNotFound ∧
    (w2.decryptContent ER 300 ⟨⟨999, 8, 7⟩, 42, ⟨999⟩, 99, 7, 8⟩).2 = .error .keyNotFound := by
  refine ⟨reach_w2, tableH_injective _, ?_, by decide +kernel⟩
  have h : (treeOf w2 300).any (fun c => decide (AMap.get c.pcsKeys ⟨701⟩ = some 701)) = true := by decide +kernel
  unfold treeOf at h
  cases hd : AMap.get w2.docs 300 with
  | none => rw [hd] at h; cases h
  | some d =>
    rw [hd] at h
    simp only [Option.bind_some] at h
    cases hc : d.cgka with
    | none => rw [hc] at h; cases h
    | some c =>
      rw [hc] at h
      exact ⟨d, c, hd, hc, of_decide_eq_true h⟩

-- After Alice has been added there is no current secret.
example : (treeOf w3 300).any (fun c => decide (c.hasPcsKey = .ok false) && decide (AMap.get c.pcsKeys ⟨999⟩ = none) &&
    decide (AMap.get c.graph.ops 99 = none)) = true := by decide +kernel

end Verif.Keyhive.ReadProps
