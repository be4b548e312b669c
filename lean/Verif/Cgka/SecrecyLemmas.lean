import Verif.Cgka.OriginLemmas

/-! # Helper lemmas: secrets only flow forward along the causal order -/

namespace Verif.Cgka

open Verif.BeeKem Relation

theorem sym_ends {a : Sk} {b : Pk} {k : SymKey} (h : k = deriveSymmetricKey a b) : a = k.lo ∨ a = k.hi := by
  subst h
  unfold deriveSymmetricKey
  simp only
  rcases Nat.le_total a b.of with h | h
  · left; rw [Nat.min_eq_left h]
  · right; rw [Nat.max_eq_left h]

/-- Both ends of a ciphertext's key are used by the operation that publishes it, and what it hides is a key that operation makes. -/
theorem cipher_facts {op : SOp} (ht : op.True) {e : EncryptedSecret} (he : e ∈ op.payload.ciphers) :
    e.key.lo ∈ op.payload.uses ∧ e.key.hi ∈ op.payload.uses ∧ e.plain ∈ op.payload.made ∧ e.plain ∈ op.payload.uses := by
  cases hp : op.payload with
  | add id pk n ps qs => rw [hp] at he; simp [Payload.ciphers] at he
  | remove id n rk ps => rw [hp] at he; simp [Payload.ciphers] at he
  | update id pc ps =>
    rw [hp] at he
    have he : e ∈ Spec.PathChange.ciphers pc := he
    have hm : e.plain ∈ pc.path.flatMap (fun q => q.2.versions.map (·.pk.of)) := by
      have he' := he
      unfold Spec.PathChange.ciphers at he'
      simp only [List.mem_flatMap, List.mem_map] at he'
      obtain ⟨q, hq, v, hv, p, hp', rfl⟩ := he'
      refine List.mem_flatMap.2 ⟨q, hq, List.mem_map.2 ⟨v, hv, ?_⟩⟩
      rw [ht id pc ps hp q hq v hv p hp']
    refine ⟨?_, ?_, hm, ?_⟩
    · exact List.mem_append_right _ (List.mem_flatMap.2 ⟨e, he, by simp⟩)
    · exact List.mem_append_right _ (List.mem_flatMap.2 ⟨e, he, by simp⟩)
    · exact List.mem_append_left _ (List.mem_append_right _ hm)

theorem made_uses {p : Payload} {s : Sk} (h : s ∈ p.made) : s ∈ p.uses := by
  cases p with
  | add => simp [Payload.made] at h
  | remove => simp [Payload.made] at h
  | update id pc ps => exact List.mem_append_left _ (List.mem_append_right _ h)

theorem published_iff {c : Cgka} {e : EncryptedSecret} :
    e ∈ published c ↔ ∃ y op, AMap.get c.graph.ops y = some op ∧ e ∈ op.payload.ciphers := by
  unfold published
  rw [List.mem_flatMap]
  constructor
  · rintro ⟨y, _, h⟩
    split at h
    · rename_i op ho
      exact ⟨y, op, ho, h⟩
    · simp at h
  · rintro ⟨y, op, ho, h⟩
    refine ⟨y, by rw [AMap.mem_keys_iff, ho]; simp, ?_⟩
    rw [ho]; exact h

/-- From secrets that occur only in `x` and its causal future, only such secrets can be worked out. -/
theorem causal_secrecy {H : SOp → Nat} (hH : Function.Injective H) {c : Cgka} (hc : Trusted H c) (hf : FreshKeys c) {x : Nat}
    {K : Sk → Prop} (hK : ∀ s, K s → UsedFrom c x s) {s : Sk} (hd : Spec.Derivable K (published c) s) : UsedFrom c x s := by
  have sc := reachOk_inv hH (trusted_ok hc)
  induction hd with
  | known h => exact hK _ h
  | @opened e a b he _ hk ih =>
    obtain ⟨y, oy, hy, hpe⟩ := published_iff.1 he
    obtain ⟨f1, f2, f3, f4⟩ := cipher_facts ((trusted_clean hH hc).ops y oy hy) hpe
    have hU : y = x ∨ Before c x y := by
      refine ih y oy hy ?_
      rcases sym_ends hk with rfl | rfl
      · exact f1
      · exact f2
    intro z oz hz hu
    rcases (trusted_traced hH hc).ops z oz hz _ hu with h1 | h1 | ⟨z', o', h1, h2, h3⟩
    · exact absurd h1 (hf y z oy oz _ hy hz f3).2
    · rw [← (hf y z oy oz _ hy hz f3).1 h1]; exact hU
    · have : z' = y := by
        rcases h3 with h3 | h3
        · exact absurd h3 (hf y z' oy o' _ hy h2 f3).2
        · exact ((hf y z' oy o' _ hy h2 f3).1 h3).symm
      subst this
      right
      rw [before_iff sc.graph] at hU ⊢
      rcases hU with rfl | hU
      · exact h1
      · exact hU.trans h1

end Verif.Cgka
