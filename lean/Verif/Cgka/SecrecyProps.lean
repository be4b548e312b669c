import Verif.Cgka.SecrecyLemmas
import Verif.Cgka.CutSample

/-!
# Secrecy and delivery with concurrent operations (C07, C08, C58, C80)

The vocabulary is in `Verif.Cgka.SecrecySpec`, `Verif.Cgka.TrustSpec` and `Verif.BeeKem.Spec`.
-/

namespace Verif.Cgka.SecrecyProps

open Verif.BeeKem Verif.Cgka Relation

/-- **C58**, with any concurrency. `x` is the operation with which a member joins, `w` any replica that does not know it — from before the
join, or concurrent with it — and `c` any replica that has, in the end, everybody's operations. From everything published, the new
member's secrets and any others that occur nowhere but in `x` and its causal future, the group secret of `w` cannot be worked out. -/
theorem C58_no_access_before_join {H : SOp → Nat} (hH : Function.Injective H) {c w : Cgka} (hc : Trusted H c) (hw : Trusted H w)
    (hk : ∀ y, Knows w y → Knows c y) (hf : FreshKeys c) {x : Nat} (hx : ¬ Knows w x) {K : Sk → Prop}
    (hK : ∀ s, K s → UsedFrom c x s) {r : Sk} (hr : Spec.RootSecret w.tree r) : ¬ Spec.Derivable K (published c) r := by
  intro hd
  have sw := reachOk_inv hH (trusted_ok hw)
  have sc := reachOk_inv hH (trusted_ok hc)
  obtain ⟨j, st, v, _, h2, h3, h4⟩ := hr
  obtain ⟨y, o, hy, ho⟩ := (trusted_traced hH hw).tree.2 st (List.mem_of_getElem? h2) v (by rw [h3]; simp)
  rw [h4] at ho
  have hwy : AMap.get w.graph.ops y ≠ none := by rw [hy]; simp
  have hcy := (knows_iff c y).1 (hk y ((knows_iff w y).2 hwy))
  have hag := ops_agree hH sc.graph sw.graph hcy hwy
  rw [hy] at hag
  apply hx
  rw [knows_iff]
  rcases causal_secrecy hH hc hf hK hd y o hag (made_uses ho) with rfl | hb
  · exact hwy
  · exact (past_agree hH sw.graph sc.graph hwy ((before_iff sc.graph x y).1 hb)).1

-- Dave joins with `6` while Alice updates (`7`). From their prekey they get the group secret of Bob's next update, `1031`, but neither of
-- Alice's, `1001` before he joined and `1011` concurrently.
open DaveSample in
example : Spec.RootSecret bob8.tree 1031 ∧ Spec.Derivable (· = 44) (published bobAll) 1031 ∧
    Spec.RootSecret alice3.tree 1001 ∧ ¬ Spec.Derivable (· = 44) (published bobAll) 1001 ∧
    Spec.RootSecret alice7.tree 1011 ∧ ¬ Spec.Derivable (· = 44) (published bobAll) 1011 := by
  have hf : FreshKeys bobAll := fresh_of (by decide +kernel)
  have hu : ∀ s, s = 44 → UsedFrom bobAll 6 s := by
    rintro s rfl
    refine used_of (l := [6, 8]) (by decide +kernel) ?_
    intro y hy
    simp only [List.mem_cons, List.not_mem_nil, or_false] at hy
    rcases hy with rfl | rfl
    · exact .inl rfl
    · exact .inr (.direct ⟨p8, by decide +kernel, by decide +kernel⟩)
  have r3 : Spec.RootSecret alice3.tree 1001 := root_of (by decide +kernel)
  have r7 : Spec.RootSecret alice7.tree 1011 := root_of (by decide +kernel)
  refine ⟨root_of (by decide +kernel), ?_, r3, ?_, r7, ?_⟩
  · exact .opened (c := Sample.box 44 1030 1031 44) (a := 44) (b := ⟨1030⟩) (by decide +kernel) (.known rfl) (by decide +kernel)
  · refine C58_no_access_before_join H_inj bobAll_trusted alice3_trusted ?_ hf (x := 6) ?_ hu r3
    · intro y; rw [knows_iff, knows_iff, ← AMap.mem_keys_iff, ← AMap.mem_keys_iff]; revert y; decide +kernel
    · rw [knows_iff]; decide +kernel
  · refine C58_no_access_before_join H_inj bobAll_trusted alice7_trusted ?_ hf (x := 6) ?_ hu r7
    · intro y; rw [knows_iff, knows_iff, ← AMap.mem_keys_iff, ← AMap.mem_keys_iff]; revert y; decide +kernel
    · rw [knows_iff]; decide +kernel

/-- C07 as one would like it with concurrency: a member of the group removes `id`, whose leaf key is `sk`, and then performs a key update with
a new leaf secret; from `sk` and everything published the new group secret cannot be worked out. -/
def C07_statement : Prop := ∀ (H : SOp → Nat) (c : Cgka) (sign sign' : Payload → Res SOp) (id : MemberId) (sk : Sk) (g : BeeKem.Gen) (n : Nat)
    (newSk r : Sk), Function.Injective H → Trusted H c → GoodSigner sign → GoodSigner sign' → c.tree.nodeKeyForId id = .ok (.share ⟨sk⟩) →
    (∀ y o, AMap.get c.graph.ops y = some o → newSk ∉ o.payload.uses) →
    let c1 := step H c (.remove sign id)
    let c2 := step H c1 (.update sign' g n newSk)
    c1.tree.containsId id = false → FreshKeys c2 → Spec.RootSecret c2.tree r → ¬ Spec.Derivable (· = sk) (published c2) r

/-- C07 is false with concurrent operations, in a group in which everybody runs the library: Alice adds 7 at leaf 2 and updates, sealing a node key to
7; Dora concurrently adds 6. After the merge 7 sits at leaf 6, but the node over leaf 2 keeps that key. Member 6 removes 7 and updates, and the
new group secret is sealed to the key 7 has. -/
theorem C07_fails_with_concurrent_operations : ¬ C07_statement := by
  intro h
  refine h CutSample.H CutSample.x11 (Sample.sign 12) (Sample.sign 13) 7 77 Sample.gen 40 68 1044 CutSample.H_inj CutSample.x11_trusted
    (Sample.sign_good 12) (Sample.sign_good 13) (by decide +kernel) ?_ (by decide +kernel) ?_ ?_ ?_
  · exact new_of (by decide +kernel)
  · exact fresh_of (c := CutSample.x13) (by decide +kernel)
  · exact root_of (t := CutSample.x13.tree) (by decide +kernel)
  · have h1 : Spec.Derivable (· = 77) (published CutSample.x13) 1001 :=
      .opened (c := Sample.box 77 1000 1001 77) (a := 77) (b := ⟨1000⟩) (by decide +kernel) (.known rfl) (by decide +kernel)
    exact .opened (c := Sample.box 1001 1042 1044 1001) (a := 1001) (b := ⟨1042⟩) (by decide +kernel) h1 (by decide +kernel)

/-- C08 as one would like it with concurrency: the owner, whose leaf key is `sk`, performs a key update with a new leaf secret; from `sk` and everything
published the new group secret cannot be worked out. -/
def C08_statement : Prop := ∀ (H : SOp → Nat) (c : Cgka) (sign : Payload → Res SOp) (sk : Sk) (g : BeeKem.Gen) (n : Nat) (newSk r : Sk),
    Function.Injective H → Trusted H c → GoodSigner sign → (∃ c0, c.replayIfNeeded H = .ok c0 ∧ c0.tree.nodeKeyForId c.ownerId = .ok (.share ⟨sk⟩)) →
    (∀ y o, AMap.get c.graph.ops y = some o → newSk ∉ o.payload.uses) →
    let c1 := step H c (.update sign g n newSk)
    c1.tree.nodeKeyForId c.ownerId = .ok (.share ⟨newSk⟩) → FreshKeys c1 → Spec.RootSecret c1.tree r →
    ¬ Spec.Derivable (· = sk) (published c1) r

/-- C08 is false with concurrent operations: in the same history, member 7 updates; the new group secret is sealed to a node key that was sealed to
7's old leaf key. -/
theorem C08_fails_with_concurrent_operations : ¬ C08_statement := by
  intro h
  have h0 : (match CutSample.s10.replayIfNeeded CutSample.H with
      | .ok c0 => decide (c0.tree.nodeKeyForId CutSample.s10.ownerId = .ok (.share ⟨77⟩))
      | .error _ => false) = true := by decide +kernel
  refine h CutSample.H CutSample.s10 (Sample.sign 14) 77 Sample.gen 60 78 1063 CutSample.H_inj CutSample.s10_trusted
    (Sample.sign_good 14) ?_ ?_ (by decide +kernel) ?_ ?_ ?_
  · split at h0
    · rename_i c0 hc0
      exact ⟨c0, hc0, by simpa using h0⟩
    · simp at h0
  · exact new_of (by decide +kernel)
  · exact fresh_of (c := CutSample.s14) (by decide +kernel)
  · exact root_of (t := CutSample.s14.tree) (by decide +kernel)
  · have h1 : Spec.Derivable (· = 77) (published CutSample.s14) 1001 :=
      .opened (c := Sample.box 77 1000 1001 77) (a := 77) (b := ⟨1000⟩) (by decide +kernel) (.known rfl) (by decide +kernel)
    exact .opened (c := Sample.box 1001 1062 1063 1001) (a := 1001) (b := ⟨1062⟩) (by decide +kernel) h1 (by decide +kernel)

/-- C80 is false with concurrent operations: Alice removes Carol while Bob adds Dave; after the merge Dave is a member in everybody's tree, but at the
position Carol's removal blanks. Alice writes; Dave, with all those operations and the secret of the prekey they were added with, cannot read — the
library panics on Dave's device. -/
theorem C80_fails_with_concurrent_operations : ∃ (H : SOp → Nat) (alice alice' dave : Cgka) (sign : Payload → Res SOp) (g : BeeKem.Gen) (n r ps : Nat)
    (s : AppSecret) (op : Option SOp), Function.Injective H ∧ Trusted H alice ∧ Trusted H dave ∧ GoodSigner sign ∧
    alice.newAppSecretFor H sign g n r ps = (alice', .ok (s, op)) ∧ alice'.graph.heads = [s.pcsUpdateOpHash] ∧ (∀ x, Knows alice' x → Knows dave x) ∧
    alice'.tree.containsId dave.ownerId = true ∧
    (∃ x o ps as i pk sk, AMap.get dave.graph.ops x = some o ∧ o.payload = .add dave.ownerId pk i ps as ∧ AMap.get dave.ownerSks pk = some sk) ∧
    ∀ p, (dave.decryptionKeyFor H (s.encrypt p)).2 = .error (.panic "Leaf should not be blank") := by
  have h : (match DaveSample.alice6.newAppSecretFor DaveSample.H (Sample.sign 9) Sample.gen 20 5 6 with
      | (a, .ok (s, _)) => decide (a.graph.heads = [s.pcsUpdateOpHash]) && a.tree.containsId 4 &&
          decide (∀ x ∈ AMap.keys a.graph.ops, x ∈ AMap.keys DaveSample.dave9.graph.ops) && decide (s.pcsKeyHash = ⟨1022⟩) &&
          decide (s.pcsUpdateOpHash = 9)
      | _ => false) = true := by decide +kernel
  split at h
  · rename_i a s op hq
    simp only [Bool.and_eq_true, decide_eq_true_eq] at h
    obtain ⟨⟨⟨⟨h1, h2⟩, h3⟩, h4⟩, h5⟩ := h
    refine ⟨DaveSample.H, DaveSample.alice6, a, DaveSample.dave9, Sample.sign 9, Sample.gen, 20, 5, 6, s, op, DaveSample.H_inj,
      DaveSample.alice6_trusted, DaveSample.dave9_trusted, Sample.sign_good 9, hq, h1, ?_, ?_, ?_, ?_⟩
    · intro x hx
      rw [knows_iff, ← AMap.mem_keys_iff] at hx ⊢
      exact h3 x hx
    · rw [show DaveSample.dave9.ownerId = 4 by decide +kernel]; exact h2
    · exact ⟨6, Sample.o6, [3], [2], 3, ⟨44⟩, 44, by decide +kernel, by decide +kernel, by decide +kernel⟩
    · intro p
      have hd : ∀ e : EncContent, e.pcsKeyHash = ⟨1022⟩ → e.pcsUpdateOpHash = 9 →
          (DaveSample.dave9.decryptionKeyFor DaveSample.H e).2 = .error (.panic "Leaf should not be blank") := by
        intro e he1 he2
        have hp : (DaveSample.dave9.pcsKeyFromHashes DaveSample.H ⟨1022⟩ 9).2 = .error (.panic "Leaf should not be blank") := by
          decide +kernel
        unfold Cgka.decryptionKeyFor
        rw [he1, he2]
        cases hx : DaveSample.dave9.pcsKeyFromHashes DaveSample.H ⟨1022⟩ 9 with
        | mk c1 res =>
          rw [hx] at hp
          dsimp only at hp
          subst hp
          rfl
      exact hd _ h4 h5
  · simp at h

end Verif.Cgka.SecrecyProps
