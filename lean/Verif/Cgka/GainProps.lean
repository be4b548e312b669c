import Verif.Cgka.SealedLemmas
import Verif.Cgka.SecrecyProps

/-!
# A device knows only what its keys give it (C90), and newcomers' devices cannot read what was written before they joined (C58)

The vocabulary is in `Verif.Cgka.GainSpec`, `Verif.Cgka.SecrecySpec` and `Verif.BeeKem.Spec`.
-/

namespace Verif.Cgka.GainProps

open Verif.BeeKem

/-- **C90.** The key a device gets for some content comes from a group secret that can be worked out from the secrets it started with or
drew itself, with the ciphertexts of the operations it holds. It may have received anything, from anybody. -/
theorem C90_decrypt {H : SOp → Nat} (hH : Function.Injective H) {K : Sk → Prop} {c : Cgka} (hc : Device H K c) {e : EncContent} {k : AppKey}
    (h : (c.decryptionKeyFor H e).2 = .ok k) : Spec.Derivable K (published c) k.pcs :=
  (Holds.decrypt (opens_derivable K _) (fun _ he => .inl he) (device_gained hH hc) e).2 k h

/-- **C90.** The same for the key with which it encrypts. -/
theorem C90_encrypt {H : SOp → Nat} (hH : Function.Injective H) {K : Sk → Prop} {c c' : Cgka} (hc : Device H K c)
    {sign : Payload → Res SOp} (hs : HonestSigner sign) {g : BeeKem.Gen} {n r ps : Nat} (hg : ∀ m, n ≤ m → K (g m)) {s : AppSecret}
    {op : Option SOp} (h : c.newAppSecretFor H sign g n r ps = (c', .ok (s, op))) : Spec.Derivable K (published c') s.key.pcs := by
  have := (Gained.encrypt hH (reach_inv hH (device_reach hc)).1 (device_gained hH hc) hs hg (r := r) (ps := ps)).2
  rw [h] at this
  exact this s op rfl

/-- **C90.** And for every secret it holds. -/
theorem C90_keys {H : SOp → Nat} (hH : Function.Injective H) {K : Sk → Prop} {c : Cgka} (hc : Device H K c) {s : Sk}
    (h : (∃ pk, AMap.get c.ownerSks pk = some s) ∨ ∃ x, AMap.get c.pcsKeys x = some s) : Spec.Derivable K (published c) s := by
  have := device_gained hH hc
  rcases h with ⟨_, h⟩ | ⟨_, h⟩
  · exact this.keys.get h
  · exact this.pcs.get h

/-- **C90.** So content under a secret that cannot be worked out in that way stays closed to the device: whatever key it gets, the
content does not open with it. -/
theorem C90_stays_closed {H : SOp → Nat} (hH : Function.Injective H) {K : Sk → Prop} {c : Cgka} (hc : Device H K c) {s : AppSecret} {plain : Nat}
    (hs : ¬ Spec.Derivable K (published c) s.key.pcs) {k : AppKey} (h : (c.decryptionKeyFor H (s.encrypt plain)).2 = .ok k) :
    (s.encrypt plain).openWith k = none := by
  unfold EncContent.openWith
  split
  · rename_i he
    have := C90_decrypt hH hc h
    rw [he] at this
    exact absurd this hs
  · rfl

/-- **C58**, for devices and with any concurrency. `x` is the operation with which a member joins; `w` wrote without knowing it, before the
join or concurrently. A device whose secrets occur nowhere but in `x` and its causal future, even with everybody's operations, gets no
key that opens what `w` wrote. -/
theorem C58_newcomer_cannot_read {H : SOp → Nat} (hH : Function.Injective H) {c w w' : Cgka} (hc : Trusted H c) {K : Sk → Prop}
    (hd : Device H K c) (hw : Trusted H w) {sign : Payload → Res SOp} (hs : GoodSigner sign) {g : BeeKem.Gen} {n r ps : Nat}
    {s : AppSecret} {op : Option SOp} (he : w.newAppSecretFor H sign g n r ps = (w', .ok (s, op)))
    (hk : ∀ y, Knows w' y → Knows c y) (hf : FreshKeys c) {x : Nat} (hx : ¬ Knows w' x) (hK : ∀ s, K s → UsedFrom c x s)
    {plain : Nat} {k : AppKey} (h : (c.decryptionKeyFor H (s.encrypt plain)).2 = .ok k) : (s.encrypt plain).openWith k = none := by
  refine C90_stays_closed hH hd ?_ h
  intro hd
  have hw' : Trusted H w' := by
    have : w' = step H w (.encrypt sign g n r ps) := by show w' = (w.newAppSecretFor H sign g n r ps).1; rw [he]
    rw [this]
    exact .call hw trivial hs
  have sw := reachOk_inv hH (trusted_ok hw')
  have sc := reachOk_inv hH (trusted_ok hc)
  obtain ⟨y, o, hy, ho⟩ := encrypt_made hH hw hs he
  have hwy : AMap.get w'.graph.ops y ≠ none := by rw [hy]; simp
  have hcy := (knows_iff c y).1 (hk y ((knows_iff w' y).2 hwy))
  have hag := ops_agree hH sc.graph sw.graph hcy hwy
  rw [hy] at hag
  apply hx
  rw [knows_iff]
  rcases causal_secrecy hH hc hf hK hd y o hag (made_uses ho) with rfl | hb
  · exact hwy
  · exact (past_agree hH sw.graph sc.graph hwy ((before_iff sc.graph x y).1 hb)).1

namespace Example

open Verif.Cgka.Sample (start gen sign sign_good o1 o2 o3 o6 o7)
open Verif.Cgka.ForkSample (recvAll)
open Verif.Cgka.DaveSample (p8 bob8 bobAll bobAll_trusted alice3 alice3_trusted alice7 alice7_trusted)

theorem recvAll_device {H : SOp → Nat} {K : Sk → Prop} {c : Cgka} (h : Device H K c) (l : List SOp) : Device H K (recvAll H c l) := by
  induction l generalizing c with
  | nil => exact h
  | cons o l ih => exact ih (.call (cmd := .receive o) h trivial trivial)

/-- Dave's device, with everybody's operations. -/
noncomputable def dave : Cgka := recvAll DaveSample.H (start.withNewOwner 4 [(⟨44⟩, 44)]) [o1, o2, o3, o6, p8, o7]

theorem dave_device : Device DaveSample.H (· = 44) dave :=
  recvAll_device (.owner 4 [(⟨44⟩, 44)] (.new ⟨0, [], rfl⟩ DaveSample.start_new) (by simp)) _

theorem dave_trusted : Trusted DaveSample.H dave := by
  refine recvAll_trusted (DaveSample.owner_trusted 4 44) _ ?_
  have h : ∀ o ∈ [o1, o2, o3, o6, p8, o7], AMap.get bobAll.graph.ops (DaveSample.H o) = some o := by decide +kernel
  exact fun o ho => ⟨bobAll, DaveSample.H o, bobAll_trusted, h o ho⟩

-- Dave's device reads what Bob wrote after adding them, under the secret `1031`, which it gets from Bob's operation with its prekey.
example : (match bob8.newAppSecretFor DaveSample.H (sign 9) gen 40 5 6 with
    | (_, .ok (s, _)) => match (dave.decryptionKeyFor DaveSample.H (s.encrypt 7)).2 with
      | .ok k => decide (k.pcs = 1031) && decide ((s.encrypt 7).openWith k = some 7)
      | .error _ => false
    | _ => false) = true := by decide +kernel

-- It does not read what Alice wrote, with all their operations in hand, before Dave joined or concurrently.
example : ∀ w ∈ [alice3, alice7], ∀ w' s op plain k, w.newAppSecretFor DaveSample.H (sign 9) gen 40 5 6 = (w', .ok (s, op)) →
    (dave.decryptionKeyFor DaveSample.H (s.encrypt plain)).2 = .ok k → (s.encrypt plain).openWith k = none := by
  intro w hw w' s op plain k he h
  have hf : FreshKeys dave := fresh_of (by decide +kernel)
  have hu : ∀ s, s = 44 → UsedFrom dave 6 s := by
    rintro s rfl
    refine used_of (l := [6, 8]) (by decide +kernel) ?_
    intro y hy
    simp only [List.mem_cons, List.not_mem_nil, or_false] at hy
    rcases hy with rfl | rfl
    · exact .inl rfl
    · exact .inr (.direct ⟨p8, by decide +kernel, by decide +kernel⟩)
  have hw' : w' = (w.newAppSecretFor DaveSample.H (sign 9) gen 40 5 6).1 := by rw [he]
  simp only [List.mem_cons, List.not_mem_nil, or_false] at hw
  rcases hw with rfl | rfl
  · refine C58_newcomer_cannot_read DaveSample.H_inj dave_trusted dave_device alice3_trusted (sign_good 9) he ?_ hf (x := 6) ?_ hu h
    · intro y; rw [knows_iff, knows_iff, ← AMap.mem_keys_iff, ← AMap.mem_keys_iff, hw']; revert y; decide +kernel
    · rw [knows_iff, hw']; decide +kernel
  · refine C58_newcomer_cannot_read DaveSample.H_inj dave_trusted dave_device alice7_trusted (sign_good 9) he ?_ hf (x := 6) ?_ hu h
    · intro y; rw [knows_iff, knows_iff, ← AMap.mem_keys_iff, ← AMap.mem_keys_iff, hw']; revert y; decide +kernel
    · rw [knows_iff, hw']; decide +kernel

-- Alice does write in both cases.
example : ∀ w ∈ [alice3, alice7], (match (w.newAppSecretFor DaveSample.H (sign 9) gen 40 5 6).2 with
    | .ok (s, _) => decide (s.key.pcs = 1001 ∨ s.key.pcs = 1011) | .error _ => false) = true := by decide +kernel

end Example

end Verif.Cgka.GainProps
