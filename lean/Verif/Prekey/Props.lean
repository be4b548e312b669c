import Verif.Prekey.Sample
import Verif.Prekey.SampleIndex

/-! # Properties of prekeys -/

namespace Verif.Prekey.Props

open Verif.Prekey.Sample (add rot)

/-! ## C40 — the prekey set is a CRDT -/

/-- C40: on every replica, however it came about, the active prekeys are exactly the keys that some operation taken in
introduced and none retired. In particular a rotated-away key is never active. -/
theorem C40_active_iff {H : KeyOp → Nat} {valid : KeyOp → Bool} (hH : Function.Injective H) {i : Indie} {l : List KeyOp}
    (h : History H valid i l) (k : Key) : k ∈ i.prekeys ↔ IsActive l k :=
  (h.inv hH).2.1 k

example : History Sample.H Sample.valid (Sample.receiveAll (Indie.new Sample.H (add 1)) [add 2, rot 1 3, rot 3 4])
    [rot 3 4, rot 1 3, add 2, add 1] ∧
    (Sample.receiveAll (Indie.new Sample.H (add 1)) [add 2, rot 1 3, rot 3 4]).prekeys = [2, 4] :=
  ⟨Sample.history_receiveAll [add 2, rot 1 3, rot 3 4] (History.new (add 1)) (by decide), by decide +kernel⟩

/-- C40: replicas that have taken in the same operations, in whatever order and however often, have the same active
prekeys. -/
theorem C40_order_independent {H : KeyOp → Nat} {valid : KeyOp → Bool} (hH : Function.Injective H) {i j : Indie}
    {l l' : List KeyOp} (hi : History H valid i l) (hj : History H valid j l') (hsame : ∀ o, o ∈ l ↔ o ∈ l') (k : Key) :
    k ∈ i.prekeys ↔ k ∈ j.prekeys := by
  rw [C40_active_iff hH hi, C40_active_iff hH hj, isActive_congr hsame]

example :
    let i := Sample.receiveAll (Indie.new Sample.H (add 1)) [rot 1 2, rot 2 3]
    let j := Sample.receiveAll (Indie.new Sample.H (rot 2 3)) [rot 1 2, add 1, rot 1 2]
    History Sample.H Sample.valid i [rot 2 3, rot 1 2, add 1] ∧
    History Sample.H Sample.valid j [rot 1 2, add 1, rot 1 2, rot 2 3] ∧ i.prekeys = [3] ∧ j.prekeys = [3] :=
  ⟨Sample.history_receiveAll [rot 1 2, rot 2 3] (History.new (add 1)) (by decide),
   Sample.history_receiveAll [rot 1 2, add 1, rot 1 2] (History.new (rot 2 3)) (by decide),
   by decide +kernel, by decide +kernel⟩

/-- C40: merging replicas of an individual is commutative, associative and idempotent, and loses nothing: the keys active after
the merge are those of the union of the two histories. -/
theorem C40_merge_laws {H : KeyOp → Nat} {valid : KeyOp → Bool} (hH : Function.Injective H) {a b c : Indie}
    {la lb lc : List KeyOp} (ha : History H valid a la) (hb : History H valid b lb) (hc : History H valid c lc)
    (hab : a.id = b.id) (hbc : b.id = c.id) (k : Key) :
    (k ∈ (a.merge b).prekeys ↔ IsActive (la ++ lb) k) ∧
    (k ∈ (a.merge b).prekeys ↔ k ∈ (b.merge a).prekeys) ∧
    (k ∈ ((a.merge b).merge c).prekeys ↔ k ∈ (a.merge (b.merge c)).prekeys) ∧
    (k ∈ (a.merge a).prekeys ↔ k ∈ a.prekeys) := by
  have h1 := ha.merge hb hab
  have h2 := hb.merge ha hab.symm
  refine ⟨C40_active_iff hH h1 k, ?_, ?_, ?_⟩
  · refine C40_order_independent hH h1 h2 (fun o => ?_) k
    simp only [List.mem_append]; exact or_comm
  · refine C40_order_independent hH (h1.merge hc (hab.trans hbc)) (ha.merge (hb.merge hc hbc) hab) (fun o => ?_) k
    simp only [List.mem_append]; exact or_assoc
  · refine C40_order_independent hH (ha.merge ha rfl) ha (fun o => ?_) k
    simp

example :
    let a := Sample.receiveAll (Indie.new Sample.H (add 1)) [rot 1 2]
    let b := Sample.receiveAll (Indie.new Sample.H (add 1)) [add 4]
    a.id = b.id ∧ (a.merge b).prekeys = [2, 4] ∧ (b.merge a).prekeys = [4, 2] := by decide +kernel

/-! ## C41 — forged prekeys are never accepted -/

/-- C41 fails. A forged operation naming an agent not heard of before makes the forged key an active prekey of that agent:
silently and with success for a contact card, and for an event although an error is reported. For a group or document whose
prekeys are not known yet, a forged event even succeeds. -/
theorem C41_fails :
    ∃ (H : KeyOp → Nat) (valid : KeyOp → Bool) (r : Registry) (forged : KeyOp), Function.Injective H ∧
      r.Authentic valid ∧ valid forged = false ∧ AMap.get r.indies forged.issuer = none ∧
      (r.step H valid (.card forged)).2 = .ok () ∧
      (∃ i, AMap.get (r.step H valid (.card forged)).1.indies forged.issuer = some i ∧ forged.newKey ∈ i.prekeys) ∧
      (r.step H valid (.event forged)).2 ≠ .ok () ∧
      (∃ i, AMap.get (r.step H valid (.event forged)).1.indies forged.issuer = some i ∧ forged.newKey ∈ i.prekeys) ∧
      ∃ forged', valid forged' = false ∧ AMap.get r.membered forged'.issuer = some none ∧
        (r.step H valid (.event forged')).2 = .ok () ∧
        ∃ i, AMap.get (r.step H valid (.event forged')).1.membered forged'.issuer = some (some i) ∧
          forged'.newKey ∈ i.prekeys := by
  refine ⟨Sample.H, Sample.valid, Sample.registry, ⟨8, 0, .add 66⟩, Sample.H_injective, Sample.registry_authentic,
    by decide, by decide +kernel, by decide +kernel, ⟨Indie.new Sample.H ⟨8, 0, .add 66⟩, by decide +kernel, by decide +kernel⟩,
    by decide +kernel, ⟨Indie.new Sample.H ⟨8, 0, .add 66⟩, by decide +kernel, by decide +kernel⟩,
    ⟨9, 0, .add 66⟩, by decide, by decide +kernel, by decide +kernel,
    ⟨Indie.new Sample.H ⟨9, 0, .add 66⟩, by decide +kernel, by decide +kernel⟩⟩

/-- C41, the part that holds: as long as the first input about each agent is genuine, after any inputs, forged or not, every
active prekey of every agent was signed by that agent. Missing: the first input about an agent, whose signature is not
checked (`C41_fails`). -/
theorem C41_signed_partial (H : KeyOp → Nat) {valid : KeyOp → Bool} {r : Registry} (hr : r.Authentic valid)
    (ins : List Input) (hfirst : Registry.FirstContactsGenuine H valid r ins) {id : Id} {i : Indie}
    (hi : AMap.get (r.run H valid ins).indies id = some i ∨ AMap.get (r.run H valid ins).membered id = some (some i))
    {k : Key} (hk : k ∈ i.prekeys) : ∃ o : KeyOp, valid o = true ∧ o.issuer = id ∧ o.newKey = k := by
  have hA := Registry.authentic_run H ins hr hfirst
  have hA' : Registry.AuthenticIndie valid id i := by
    rcases hi with hi | hi
    · exact hA.1 id i hi
    · exact hA.2 id i hi
  rw [hA'.2.2, State.mem_build] at hk
  obtain ⟨o, ho, e⟩ := (introduced_iff _ _).1 hk.1
  exact ⟨o, (hA'.2.1 o ho).1, (hA'.2.1 o ho).2, e⟩

example : Registry.FirstContactsGenuine Sample.H Sample.valid Sample.registry
    [.card ⟨8, 8, .rotate 80 81⟩, .event ⟨8, 0, .add 66⟩, .event ⟨7, 0, .add 66⟩, .event (rot 1 2)] ∧
    (AMap.get (Sample.registry.run Sample.H Sample.valid
      [.card ⟨8, 8, .rotate 80 81⟩, .event ⟨8, 0, .add 66⟩, .event ⟨7, 0, .add 66⟩, .event (rot 1 2)]).indies 8).map
        Indie.prekeys = some [81] := by
  refine ⟨⟨.inl (by decide), .inr ?_, .inr ?_, .inl (by decide), trivial⟩, by decide +kernel⟩ <;> decide +kernel

/-- C41, the part that holds: a forged input about an agent with known prekeys changes nothing at all. -/
theorem C41_known_unchanged_partial (H : KeyOp → Nat) {valid : KeyOp → Bool} {r : Registry} (i : Input)
    (hforged : valid i.op = false) (hknown : r.Known i) : (r.step H valid i).1 = r :=
  Registry.forged_known H i hforged hknown

example : Sample.valid (⟨7, 0, .add 66⟩ : KeyOp) = false ∧ Sample.registry.Known (.card ⟨7, 0, .add 66⟩) := by
  exact ⟨by decide, by decide +kernel⟩

/-- C41, the part that holds: registering an individual that is already known does not replace what is known about it. -/
theorem C41_register_known_partial (r : Registry) (i j : Indie) (h : AMap.get r.indies i.id = some j) :
    r.registerIndividual i = r := by
  simp [Registry.registerIndividual, AMap.contains, h]

example : ∃ j, AMap.get Sample.registry.indies 7 = some j := Option.isSome_iff_exists.1 (by decide +kernel)

/-! ## C42 — picking a prekey -/

/-- C42, the part that holds: a key that is picked is an active prekey of the individual. -/
theorem C42_picked_active_partial (xof : Id → Id → Nat → Nat) (i : Indie) (doc : Id) (turns : Nat) (k : Key)
    (h : i.pickPrekey xof doc turns = .key k) : k ∈ i.prekeys := by
  unfold Indie.pickPrekey at h
  split at h
  · cases h
  · split at h
    · cases h
    · rename_i k' hk
      cases h
      exact List.mem_of_getElem? hk

example : (Sample.many 20).pickPrekey (fun _ _ n => 17 - n) 3 5 = .key 16 := by decide +kernel

theorem sample_spec (stream : Nat → Nat) (shift max : Nat) : ∀ (turns i : Nat) (x : Nat),
    sampleLoop stream shift max turns i = some x → x ≤ max ∧ ∃ j, x = clamp (stream j) shift := by
  intro turns
  induction turns with
  | zero => intro i x h; cases h
  | succ n ih =>
    intro i x h
    unfold sampleLoop at h
    split at h
    · rename_i hc
      cases h
      exact ⟨hc, i, rfl⟩
    · exact ih _ _ h

theorem log2_le_seven {n : Nat} (h : n < 256) : Nat.log2 n ≤ 7 := by
  by_cases h0 : n = 0
  · subst h0; decide
  · have := (Nat.log2_lt h0 (k := 8)).2 (by omega)
    omega

theorem sampleLoop_one (stream : Nat → Nat) (shift max : Nat) (h : clamp (stream 0) shift = max) :
    sampleLoop stream shift max 1 0 = some max := by
  unfold sampleLoop
  generalize clamp (stream 0) shift = c at h
  subst h
  simp

theorem pseudorandom_one (s : Nat → Nat) (n shift : Nat) (hs : 64 - Nat.log2 n = shift) (hc : clamp (s 0) shift = n) : pseudorandomInRange s n 1 = some n := by
    have h := sampleLoop_one s shift n hc
    subst hs
    exact h

theorem panic_of_idx (i : Indie) (doc : Id) (xof : Id → Id → Nat → Nat) (t : Nat) (h1 : pseudorandomInRange (xof i.id doc) i.prekeys.length t = some i.prekeys.length) : 
    i.pickPrekey xof doc t = .panic := by
  unfold Indie.pickPrekey
  split
  · simp_all
  · rename_i idx h2
    have h3 : idx = i.prekeys.length := Option.some.inj (h2.symm.trans h1)
    subst h3
    simp

theorem sampleLoop_found (s : Nat → Nat) (n shift idx : Nat) (hc : clamp (s 0) shift = idx) (hle : idx ≤ n) : sampleLoop s shift n 1 0 = some idx := by
  unfold sampleLoop
  generalize clamp (s 0) shift = x at hc ⊢
  subst hc
  rw [if_pos hle]

theorem pseudorandom_found (s : Nat → Nat) (n shift idx : Nat) (hs : 64 - Nat.log2 n = shift) (hc : clamp (s 0) shift = idx) (hle : idx ≤ n) :
    pseudorandomInRange s n 1 = some idx := by
  have h := sampleLoop_found s n shift idx hc hle
  subst hs
  exact h

theorem picked_of_idx (i : Indie) (doc : Id) (xof : Id → Id → Nat → Nat) (t idx : Nat) (h1 : pseudorandomInRange (xof i.id doc) i.prekeys.length t = some idx)
    (k : Key) (hk : i.prekeys[idx]? = some k) : i.pickPrekey xof doc t = .key k := by
  unfold Indie.pickPrekey
  generalize pseudorandomInRange (xof i.id doc) i.prekeys.length t = x at h1 ⊢
  subst h1
  simp only [hk]

/-- C42, exactly when picking panics: an individual with `n` active prekeys panics on some hash output if and only if the eight bytes of
`n`, read backwards, are divisible by `2 ^ (64 - ⌊log₂ n⌋)`. -/
theorem C42_panic_iff (i : Indie) (doc : Id) :
    (∃ xof turns, i.pickPrekey xof doc turns = .panic) ↔
      ∃ m, ReadsBackwards i.prekeys.length m ∧ 2 ^ (64 - Nat.log2 i.prekeys.length) ∣ m := by
  have hc := clamp_iff (s := 64 - Nat.log2 i.prekeys.length) (Nat.sub_le _ _) i.prekeys.length
  have hr : (∃ m, ReadsBackwards i.prekeys.length m ∧ 2 ^ (64 - Nat.log2 i.prekeys.length) ∣ m) ↔
      i.prekeys.length < 2 ^ 64 ∧ 2 ^ (64 - Nat.log2 i.prekeys.length) ∣ swapBytes i.prekeys.length := by
    simp only [backwards_iff]
    exact ⟨fun ⟨m, ⟨h1, h2⟩, h3⟩ => ⟨h1, h2 ▸ h3⟩, fun ⟨h1, h2⟩ => ⟨_, ⟨h1, rfl⟩, h2⟩⟩
  rw [hr, ← hc]
  constructor
  · rintro ⟨xof, turns, h⟩
    unfold Indie.pickPrekey pseudorandomInRange at h
    split at h
    · cases h
    · rename_i idx hidx
      obtain ⟨h3, j, h4⟩ := sample_spec _ _ _ _ _ _ hidx
      split at h
      · rename_i hn
        rw [List.getElem?_eq_none_iff] at hn
        have he : idx = i.prekeys.length := by omega
        exact ⟨_, h4.symm.trans he⟩
      · cases h
  · rintro ⟨v, hv⟩
    exact ⟨fun _ _ _ => v, 1, panic_of_idx i doc _ _ (pseudorandom_one (fun _ => v) _ _ rfl hv)⟩

-- With 4096 prekeys, as with 16, picking can panic; with 257 it cannot.
example : ReadsBackwards 4096 (2 ^ 52) ∧ 2 ^ (64 - Nat.log2 4096) ∣ 2 ^ 52 ∧ ReadsBackwards 257 (2 ^ 56 + 2 ^ 48) ∧
    ¬ 2 ^ (64 - Nat.log2 257) ∣ 2 ^ 56 + 2 ^ 48 :=
  ⟨⟨[0, 16, 0, 0, 0, 0, 0, 0], by decide +kernel⟩, by decide +kernel, ⟨[1, 1, 0, 0, 0, 0, 0, 0], by decide +kernel⟩, by decide +kernel⟩

/-- C42, the same for at most 255 active prekeys: picking panics on some hash output if and only if there are at least 16 of them and their
number is divisible by `2 ^ (8 - ⌊log₂ n⌋)`. -/
theorem C42_panic_small_iff (i : Indie) (doc : Id) (h1 : 0 < i.prekeys.length) (h2 : i.prekeys.length < 256) :
    (∃ xof turns, i.pickPrekey xof doc turns = .panic) ↔
      16 ≤ i.prekeys.length ∧ 2 ^ (8 - Nat.log2 i.prekeys.length) ∣ i.prekeys.length := by
  have hd := log2_le_seven h2
  have hlow : 2 ^ Nat.log2 i.prekeys.length ≤ i.prekeys.length := Nat.log2_self_le (by omega)
  constructor
  · rintro ⟨xof, turns, h⟩
    unfold Indie.pickPrekey pseudorandomInRange at h
    split at h
    · cases h
    · rename_i idx hidx
      obtain ⟨h3, j, h4⟩ := sample_spec _ _ _ _ _ _ hidx
      rw [clamp_small _ _ (by omega)] at h4
      split at h
      · rename_i hn
        rw [List.getElem?_eq_none_iff] at hn
        have he : idx = i.prekeys.length := by omega
        have hdiv : 2 ^ (8 - Nat.log2 i.prekeys.length) ∣ i.prekeys.length := by
          exact ⟨_, he.symm.trans (h4.trans (Nat.mul_comm _ _))⟩
        refine ⟨?_, hdiv⟩
        by_contra hlt
        have hl3 : Nat.log2 i.prekeys.length < 4 := (Nat.log2_lt (by omega)).2 (by omega)
        have h16 : 2 ^ 5 ≤ 2 ^ (8 - Nat.log2 i.prekeys.length) := Nat.pow_le_pow_right (by omega) (by omega)
        have := Nat.le_of_dvd h1 hdiv
        omega
      · cases h
  · rintro ⟨h16, q, hq⟩
    have hlog : 4 ≤ Nat.log2 i.prekeys.length := by
      by_contra hc
      have := (Nat.log2_lt (n := i.prekeys.length) (by omega) (k := 4)).1 (by omega)
      omega
    have hup : i.prekeys.length < 2 ^ (Nat.log2 i.prekeys.length + 1) := Nat.lt_log2_self
    have hq2 : q < 2 ^ Nat.log2 i.prekeys.length := by
      by_contra hc
      push Not at hc
      have e : (2 : Nat) ^ 8 = 2 ^ (8 - Nat.log2 i.prekeys.length) * 2 ^ Nat.log2 i.prekeys.length := by
        rw [← Nat.pow_add]; congr 1; omega
      have := Nat.mul_le_mul_left (2 ^ (8 - Nat.log2 i.prekeys.length)) hc
      rw [← hq, ← e] at this
      omega
    refine ⟨fun _ _ _ => q, 1, ?_⟩
    have hc : clamp q (64 - Nat.log2 i.prekeys.length) = i.prekeys.length := by
      rw [clamp_small _ _ (by omega), Nat.mod_eq_of_lt hq2, Nat.mul_comm]; exact hq.symm
    exact panic_of_idx i doc _ _ (pseudorandom_one _ _ _ rfl hc)

example : ∃ i : Indie, History Sample.H Sample.valid i
      (((List.range 15).map (fun k => add (k + 1))).reverse ++ [add 0]) ∧ i.prekeys.length = 16 :=
  ⟨Sample.many 16, Sample.history_receiveAll _ (History.new (add 0)) (by decide), by decide +kernel⟩

/-- C42 fails: an individual that published 16 prekeys makes the caller panic, for a document whose hash begins with the bytes
`0 0 0 0 0 0 0 1` (and for many others). -/
theorem C42_fails :
    ∃ (H : KeyOp → Nat) (valid : KeyOp → Bool) (i : Indie) (l : List KeyOp) (xof : Id → Id → Nat → Nat) (doc : Id),
      Function.Injective H ∧ History H valid i l ∧ (∀ o ∈ l, valid o = true) ∧ i.prekeys ≠ [] ∧
      i.pickPrekey xof doc 1 = .panic :=
  ⟨Sample.H, Sample.valid, Sample.many 16, _, fun _ _ _ => 1, 3, Sample.H_injective,
    Sample.history_receiveAll _ (History.new (add 0)) (by decide), by decide, by decide +kernel, by decide +kernel⟩

/-! ## C68 — every active prekey can be chosen -/

/-- C68 fails: with 2 to 15 active prekeys (a new agent publishes 7) every document is given the same prekey, whatever the
hash: the first in iteration order. The other prekeys are never chosen. -/
theorem C68_fails (i : Indie) (h1 : 2 ≤ i.prekeys.length) (h2 : i.prekeys.length < 16) (xof : Id → Id → Nat → Nat) (doc : Id)
    (turns : Nat) (k : Key) (h : i.pickPrekey xof doc turns = .key k) : i.prekeys[0]? = some k := by
  unfold Indie.pickPrekey pseudorandomInRange at h
  split at h
  · cases h
  · rename_i idx hidx
    obtain ⟨h3, j, h4⟩ := sample_spec _ _ _ _ _ _ hidx
    have hl3 : Nat.log2 i.prekeys.length < 4 := (Nat.log2_lt (by omega)).2 (by omega)
    rw [clamp_small _ _ (by omega)] at h4
    have h16 : 2 ^ 5 ≤ 2 ^ (8 - Nat.log2 i.prekeys.length) := Nat.pow_le_pow_right (by omega) (by omega)
    have hz : xof i.id doc j % 2 ^ Nat.log2 i.prekeys.length = 0 := by
      by_contra hne
      have : 1 * 2 ^ (8 - Nat.log2 i.prekeys.length) ≤
          (xof i.id doc j % 2 ^ Nat.log2 i.prekeys.length) * 2 ^ (8 - Nat.log2 i.prekeys.length) :=
        Nat.mul_le_mul_right _ (by omega)
      omega
    rw [hz, Nat.zero_mul] at h4
    subst h4
    split at h
    · cases h
    · rename_i k' hk
      cases h
      exact hk

example : ∃ a : Active, Active.generate Sample.H Sample.valid id (Sample.sign 7) 7 1 [2, 3, 4, 5, 6, 7] = .ok a ∧
    a.indie.prekeys.length = 7 ∧ a.indie.pickPrekey (fun _ _ n => n + 1) 3 9 = .key 7 := by
  refine ⟨(Active.generate Sample.H Sample.valid id (Sample.sign 7) 7 1 [2, 3, 4, 5, 6, 7]).toOption.getD
    ⟨Indie.new Sample.H (add 1), []⟩, ?_, ?_, ?_⟩ <;> decide +kernel

/-- C68, exactly which prekeys can be chosen: those at an index whose eight bytes, read backwards, are divisible by
`2 ^ (64 - ⌊log₂ n⌋)`, of `n` active prekeys.
Missing from the full property: the other prekeys (`C68_fails`, `C68_all_iff`). -/
theorem C68_chosen_iff_partial (i : Indie) (doc : Id) (k : Key) :
    (∃ xof turns, i.pickPrekey xof doc turns = .key k) ↔
      ∃ idx m, i.prekeys[idx]? = some k ∧ ReadsBackwards idx m ∧ 2 ^ (64 - Nat.log2 i.prekeys.length) ∣ m := by
  simp only [backwards_iff]
  constructor
  · rintro ⟨xof, turns, h⟩
    unfold Indie.pickPrekey pseudorandomInRange at h
    split at h
    · cases h
    · rename_i idx hidx
      obtain ⟨h3, j, h4⟩ := sample_spec _ _ _ _ _ _ hidx
      split at h
      · cases h
      · rename_i k' hk
        cases h
        obtain ⟨g1, g2⟩ := (clamp_iff (Nat.sub_le _ _) idx).1 ⟨_, h4.symm⟩
        exact ⟨idx, _, hk, ⟨g1, rfl⟩, g2⟩
  · rintro ⟨idx, m, hk, ⟨h1, rfl⟩, h2⟩
    have hlt : idx < i.prekeys.length := (List.getElem?_eq_some_iff.1 hk).1
    obtain ⟨v, hv⟩ := (clamp_iff (Nat.sub_le _ _) idx).2 ⟨h1, h2⟩
    exact ⟨fun _ _ _ => v, 1, picked_of_idx i doc _ _ idx (pseudorandom_found (fun _ => v) _ _ _ rfl hv hlt.le) k hk⟩

/-- C68, for which individuals it holds: every active prekey can be chosen if and only if the number of active prekeys is a power of 256
(one is). -/
theorem C68_all_iff (i : Indie) (doc : Id) (hn : i.prekeys.Nodup) (h1 : 0 < i.prekeys.length) (h2 : i.prekeys.length < 2 ^ 64) :
    (∀ k ∈ i.prekeys, ∃ xof turns, i.pickPrekey xof doc turns = .key k) ↔ ∃ b, i.prekeys.length = 256 ^ b := by
  have hidx : (∀ k ∈ i.prekeys, ∃ xof turns, i.pickPrekey xof doc turns = .key k) ↔
      ∀ idx, idx < i.prekeys.length → 2 ^ (64 - Nat.log2 i.prekeys.length) ∣ swapBytes idx := by
    constructor
    · intro h idx hx
      obtain ⟨j, m, g1, g2, g3⟩ := (C68_chosen_iff_partial i doc _).1 (h _ (List.getElem_mem hx))
      have hj := List.getElem?_eq_some_iff.1 g1
      have : j = idx := (List.Nodup.getElem_inj_iff hn).1 hj.2
      subst this
      rw [backwards_iff] at g2
      rw [g2.2]; exact g3
    · intro h k hk
      obtain ⟨idx, hx, rfl⟩ := List.getElem_of_mem hk
      exact (C68_chosen_iff_partial i doc _).2 ⟨idx, swapBytes idx, List.getElem?_eq_getElem hx, (backwards_iff _ _).2 ⟨by omega, rfl⟩, h idx hx⟩
  rw [hidx]
  generalize i.prekeys.length = n at h1 h2
  have hlow : 2 ^ Nat.log2 n ≤ n := Nat.log2_self_le (by omega)
  have hup : n < 2 ^ (Nat.log2 n + 1) := Nat.lt_log2_self
  have hL : Nat.log2 n < 64 := (Nat.log2_lt (by omega)).2 h2
  generalize Nat.log2 n = L at hlow hup hL
  have hpow : ∀ b, (256 : Nat) ^ b = 2 ^ (8 * b) := fun b => by rw [Nat.pow_mul]
  constructor
  · intro h
    -- the index with a single bit in the lowest place of its highest byte
    by_contra hne
    have hj : (L - 1) / 8 < 8 := by omega
    by_cases hd : 8 ∣ L
    · -- the index just above the range of the sampling
      obtain ⟨b, hb⟩ := hd
      have hlt : 256 ^ b < n := by
        rcases Nat.lt_or_ge (256 ^ b) n with h3 | h3
        · exact h3
        · rw [hpow, ← hb] at h3
          exact absurd ⟨b, by rw [hpow, ← hb]; omega⟩ hne
      have h3 := h _ hlt
      rw [swap_power (by omega), hpow] at h3
      have := (Nat.pow_dvd_pow_iff_le_right (by omega)).1 h3
      omega
    · have hlt : 256 ^ (L / 8) < n := by
        refine Nat.lt_of_lt_of_le ?_ hlow
        rw [hpow]
        exact Nat.pow_lt_pow_right (by omega) (by omega)
      have h3 := h _ hlt
      rw [swap_power (by omega), hpow] at h3
      have := (Nat.pow_dvd_pow_iff_le_right (by omega)).1 h3
      omega
  · rintro ⟨b, rfl⟩ idx hx
    have hLb : L = 8 * b := by
      rw [hpow] at hlow hup
      have h3 := (Nat.pow_le_pow_iff_right (by omega : 1 < 2)).1 hlow
      have h4 := (Nat.pow_lt_pow_iff_right (by omega : 1 < 2)).1 hup
      omega
    have := swap_dvd (b := b) (by omega) hx
    rw [hpow] at this
    refine Nat.dvd_trans (Nat.pow_dvd_pow 2 ?_) this
    omega

example : (Sample.many 256).prekeys.Nodup ∧ (Sample.many 256).prekeys.length = 256 ^ 1 := by decide +kernel

example : (Sample.many 16).prekeys.Nodup ∧ (Sample.many 16).prekeys.length = 16 ∧ ¬ ∃ b, 16 = 256 ^ b := by
  refine ⟨by decide +kernel, by decide +kernel, ?_⟩
  rintro ⟨b, hb⟩
  cases b with
  | zero => omega
  | succ b =>
    have : 0 < 256 ^ b := Nat.pow_pos (by omega)
    rw [Nat.pow_succ] at hb
    omega

/-- C68, the same for 1 to 255 active prekeys: every `2 ^ (8 - ⌊log₂ n⌋)`-th in
iteration order.
Missing from the full property: the other prekeys (`C68_fails`); only an individual with one prekey has no others. -/
theorem C68_chosen_small_iff_partial (i : Indie) (doc : Id) (h1 : 0 < i.prekeys.length) (h2 : i.prekeys.length < 256) (k : Key) :
    (∃ xof turns, i.pickPrekey xof doc turns = .key k) ↔
      ∃ idx, i.prekeys[idx]? = some k ∧ 2 ^ (8 - Nat.log2 i.prekeys.length) ∣ idx := by
  have hd := log2_le_seven h2
  constructor
  · rintro ⟨xof, turns, h⟩
    unfold Indie.pickPrekey pseudorandomInRange at h
    split at h
    · cases h
    · rename_i idx hidx
      obtain ⟨h3, j, h4⟩ := sample_spec _ _ _ _ _ _ hidx
      rw [clamp_small _ _ (by omega)] at h4
      split at h
      · cases h
      · rename_i k' hk
        cases h
        exact ⟨idx, hk, _, h4.trans (Nat.mul_comm _ _)⟩
  · rintro ⟨idx, hk, q, hq⟩
    have hlt : idx < i.prekeys.length := (List.getElem?_eq_some_iff.1 hk).1
    have hq2 : q < 2 ^ Nat.log2 i.prekeys.length := by
      by_contra hc
      push Not at hc
      have e : (2 : Nat) ^ 8 = 2 ^ (8 - Nat.log2 i.prekeys.length) * 2 ^ Nat.log2 i.prekeys.length := by
        rw [← Nat.pow_add]; congr 1; omega
      have := Nat.mul_le_mul_left (2 ^ (8 - Nat.log2 i.prekeys.length)) hc
      rw [← hq, ← e] at this
      omega
    refine ⟨fun _ _ _ => q, 1, ?_⟩
    have hc : clamp q (64 - Nat.log2 i.prekeys.length) = idx := by
      rw [clamp_small _ _ (by omega), Nat.mod_eq_of_lt hq2, Nat.mul_comm]; exact hq.symm
    exact picked_of_idx i doc _ _ idx (pseudorandom_found (fun _ => q) _ _ _ rfl hc hlt.le) k hk

-- Of 16 prekeys the first can be chosen.
example : (Sample.many 16).prekeys.length = 16 ∧ (Sample.many 16).prekeys[0]? ≠ none ∧ 2 ^ (8 - Nat.log2 16) ∣ 0 :=
  ⟨by decide +kernel, by decide +kernel, ⟨0, rfl⟩⟩

/-! ## C43 — individuals never run out of prekeys -/

/-- C43 fails in two ways. Validly signed operations can leave an individual with no prekey at all, so that nobody can add it to
a document any more. And honest operations received out of order make the number of prekeys fall. -/
theorem C43_fails :
    ∃ (H : KeyOp → Nat) (valid : KeyOp → Bool), Function.Injective H ∧
      (∃ i l, History H valid i l ∧ (∀ o ∈ l, valid o = true) ∧ i.prekeys = [] ∧
        ∀ xof doc, i.pickPrekey xof doc 1 = .panic) ∧
      (∃ i i' l op, History H valid i l ∧ (∀ o ∈ op :: l, valid o = true) ∧ Acyclic (op :: l) ∧ Grounded (op :: l) ∧
        OwnKeys (op :: l) ∧ i.receive H valid op = .ok i' ∧ i'.prekeys.length < i.prekeys.length) := by
  refine ⟨Sample.H, Sample.valid, Sample.H_injective, ⟨Sample.cyclic, _,
    Sample.history_receiveAll _ (History.new (add 1)) (by decide), by decide, by decide +kernel, ?_⟩, ?_⟩
  · intro xof doc
    have h1 : Sample.cyclic.prekeys = [] := by decide +kernel
    unfold Indie.pickPrekey
    rw [h1]
    have : clamp (xof Sample.cyclic.id doc 0) 64 = 0 := by simp [clamp, swapBytes]
    simp [pseudorandomInRange, sampleLoop, Nat.log2_zero, this]
  · refine ⟨Sample.receiveAll (Indie.new Sample.H (add 1)) [rot 2 3],
      Sample.receiveAll (Indie.new Sample.H (add 1)) [rot 2 3, rot 1 2], [rot 2 3, add 1], rot 1 2,
      Sample.history_receiveAll [rot 2 3] (History.new (add 1)) (by decide), by decide,
      Sample.acyclic_of_ascending (by decide), ?_, ?_, by decide +kernel, by decide +kernel⟩
    · rintro k ⟨o, ho, new, hb⟩
      simp only [List.mem_cons, List.not_mem_nil, or_false] at ho
      rcases ho with rfl | rfl | rfl
      · simp [rot] at hb
        exact ⟨add 1, by simp, .inl (by rw [← hb.1]; rfl)⟩
      · simp [rot] at hb
        exact ⟨rot 1 2, by simp, .inr ⟨1, by rw [← hb.1]; rfl⟩⟩
      · simp [add] at hb
    · unfold OwnKeys; decide +kernel

/-- C43, the part that holds: as long as rotations never lead back to a retired key, every replica has an active prekey. -/
theorem C43_nonempty_partial {H : KeyOp → Nat} {valid : KeyOp → Bool} (hH : Function.Injective H) {i : Indie}
    {l : List KeyOp} (h : History H valid i l) (hac : Acyclic l) : i.prekeys ≠ [] := by
  obtain ⟨k, hk⟩ := acyclic_active (h.inv hH).2.2.2 hac
  have := (C40_active_iff hH h k).2 hk
  intro he
  rw [he] at this
  cases this

example : Acyclic [rot 3 4, rot 1 3, add 2, add 1] := Sample.acyclic_of_ascending (by decide)

/-- C43, the part that holds: receiving an operation whose new key is not mentioned yet does not lower the number of active
prekeys. Missing: operations received before the ones they build on (`C43_fails`). -/
theorem C43_count_partial {H : KeyOp → Nat} {valid : KeyOp → Bool} (hH : Function.Injective H) {i i' : Indie}
    {l : List KeyOp} (h : History H valid i l) (op : KeyOp) (hr : i.receive H valid op = .ok i')
    (hfresh : Unused l op.newKey) (hself : op.oldKey ≠ some op.newKey) : i.prekeys.length ≤ i'.prekeys.length := by
  have h' := h.receive op hr
  have hn := (h.inv hH).2.2.1
  have hact := C40_active_iff hH h
  have hact' := C40_active_iff hH h'
  have hkeep : ∀ k, k ∈ i.prekeys → op.oldKey ≠ some k → k ∈ i'.prekeys := by
    intro k hk ho
    rw [hact'] 
    obtain ⟨h1, h2⟩ := (hact k).1 hk
    exact ⟨(introduced_cons _ _ _).2 (.inr h1), fun hc => ((retired_cons _ _ _).1 hc).elim ho h2⟩
  have hnew : op.newKey ∈ i'.prekeys :=
    (hact' _).2 ⟨(introduced_cons _ _ _).2 (.inl rfl), fun hc => ((retired_cons _ _ _).1 hc).elim hself hfresh.2⟩
  have hnot : op.newKey ∉ i.prekeys := fun hc => hfresh.1 ((hact _).1 hc).1
  cases ho : op.oldKey with
  | none =>
    exact (List.subperm_of_subset hn (fun k hk => hkeep k hk (by simp [ho]))).length_le
  | some old =>
    have hsub : (op.newKey :: sremove i.prekeys old) ⊆ i'.prekeys := by
      intro k hk
      rcases List.mem_cons.1 hk with rfl | hk
      · exact hnew
      · obtain ⟨h1, h2⟩ := (mem_sremove _ _ _).1 hk
        exact hkeep k h2 (by rw [ho]; intro hc; exact h1 (Option.some.inj hc).symm)
    have hnd : (op.newKey :: sremove i.prekeys old).Nodup :=
      List.nodup_cons.2 ⟨fun hc => hnot ((mem_sremove _ _ _).1 hc).2, nodup_sremove hn _⟩
    have h1 := (List.subperm_of_subset hnd hsub).length_le
    have h2 := length_sremove i.prekeys old hn
    simp only [List.length_cons] at h1
    omega

example : Unused [add 2, add 1] (rot 1 3).newKey ∧ (rot 1 3).oldKey ≠ some (rot 1 3).newKey := by
  refine ⟨⟨?_, ?_⟩, by decide⟩
  · rw [introduced_iff]; decide
  · rw [retired_iff]; decide

/-! ## C44 — prekey history is emitted in dependency order -/

theorem cyc_runs : ∀ (n : Nat) (out : List KeyOp),
    topsortLoop [rot 2 1, rot 1 2, add 1] n [rot 1 2] out = none ∧
    topsortLoop [rot 2 1, rot 1 2, add 1] n [rot 2 1] out = none := by
  intro n
  induction n with
  | zero => intro out; exact ⟨rfl, rfl⟩
  | succ n ih =>
    intro out
    exact ⟨(ih _).2, (ih _).1⟩

/-- C44 fails in three ways. With rotations that lead back, listing the operations never ends. A rotation of a key whose
introduction is not known is left out: in particular an individual known from a contact card (which is a rotation) has no
operations to send. And when two operations introduce the same key, what builds on it is listed twice. -/
theorem C44_fails :
    ∃ (H : KeyOp → Nat) (valid : KeyOp → Bool), Function.Injective H ∧
      (∃ i l, History H valid i l ∧ (∀ o ∈ l, valid o = true) ∧ ∀ n, topsort n i.state = none) ∧
      (∃ r r' : Registry, ∃ card i, valid card = true ∧ r.receiveContactCard H valid card = (r', .ok ()) ∧
        AMap.get r'.indies card.issuer = some i ∧ card.newKey ∈ i.prekeys ∧ ∀ n, topsort n i.state = some []) ∧
      (∃ i l out, History H valid i l ∧ (∀ o ∈ l, valid o = true) ∧ Acyclic l ∧ topsort 10 i.state = some out ∧ ¬ out.Nodup) := by
  refine ⟨Sample.H, Sample.valid, Sample.H_injective, ?_, ?_, ?_⟩
  · refine ⟨Sample.cyclic, _, Sample.history_receiveAll _ (History.new (add 1)) (by decide), by decide, fun n => ?_⟩
    have hv : AMap.values Sample.cyclic.state = [rot 2 1, rot 1 2, add 1] := by decide +kernel
    unfold topsort
    rw [hv]
    cases n with
    | zero => rfl
    | succ n => exact (cyc_runs n _).1
  · refine ⟨Sample.registry, (Sample.registry.receiveContactCard Sample.H Sample.valid ⟨8, 8, .rotate 80 81⟩).1,
      ⟨8, 8, .rotate 80 81⟩, Indie.new Sample.H ⟨8, 8, .rotate 80 81⟩, by decide, by decide +kernel, by decide +kernel,
      by decide +kernel, fun n => ?_⟩
    cases n <;> rfl
  · refine ⟨Sample.receiveAll (Indie.new Sample.H (add 1)) [add 2, rot 1 2, rot 2 3], _,
      [add 1, rot 1 2, rot 2 3, add 2, rot 2 3],
      Sample.history_receiveAll _ (History.new (add 1)) (by decide), by decide,
      Sample.acyclic_of_ascending (by decide), by decide +kernel, by decide +kernel⟩

/-- C44, the part that holds: when rotations never lead back, each operation has a key of its own and every rotated key was
introduced, the listing ends within one turn per operation, has every operation exactly once, and puts each rotation after
the operation that introduced the key it rotates. -/
theorem C44_dependency_order_partial {H : KeyOp → Nat} {valid : KeyOp → Bool} (hH : Function.Injective H) {i : Indie}
    {l : List KeyOp} (h : History H valid i l) (hac : Acyclic l) (hown : OwnKeys l) (hg : Grounded l) :
    ∃ out, topsort i.state.length i.state = some out ∧ out.Nodup ∧ (∀ o, o ∈ out ↔ o ∈ l) ∧ InDependencyOrder out := by
  have hh := (h.inv hH).1
  have hmem := hh.mem_values
  have hnd : (AMap.values i.state).Nodup := by
    unfold AMap.values
    refine List.Nodup.map_on ?_ (List.Nodup.of_map Prod.fst hh.wf)
    rintro ⟨d, o⟩ hx ⟨d', o'⟩ hy he
    simp only at he
    subst he
    have h1 := ((hh.get d o).1 (AMap.get_of_mem hh.wf hx)).1
    have h2 := ((hh.get d' o).1 (AMap.get_of_mem hh.wf hy)).1
    rw [h1, h2]
  have hown' : OwnKeys (AMap.values i.state) := fun o ho o' ho' => hown o ((hmem o).1 ho) o' ((hmem o').1 ho')
  obtain ⟨out, h1, h2⟩ := topsortLoop_ok hnd hown' i.state.length _ [] (sortInv_start hnd) (by simp [AMap.values])
  refine ⟨out, h1, by simpa using h2.nodup, fun o => ?_, h2.order⟩
  rw [← hmem]
  refine ⟨fun ho => h2.sub o (by simpa using ho), fun ho => h2.complete ?_ ?_ o ho⟩
  · obtain ⟨rank, hr⟩ := hac
    exact ⟨rank, fun o ho => hr o ((hmem o).1 ho)⟩
  · intro k hk
    rw [introduced_congr hmem, retired_congr hmem] at *
    exact hg k hk

example : topsort 4 (Sample.receiveAll (Indie.new Sample.H (add 1)) [rot 3 4, rot 1 3, add 2]).state =
    some [add 1, rot 1 3, rot 3 4, add 2] ∧ OwnKeys [add 2, rot 1 3, rot 3 4, add 1] := by
  refine ⟨by decide +kernel, ?_⟩
  unfold OwnKeys; decide +kernel

/-! ## C57 — the public individual is fixed -/

/-- C57, the part that holds: no sequence of received prekey events changes the built-in public individual. -/
theorem C57_events_partial (H : KeyOp → Nat) (valid : KeyOp → Bool) {r : Registry} (hf : r.Filed) (ops : List KeyOp) :
    AMap.get (r.run H valid (ops.map .event)).indies r.pub = AMap.get r.indies r.pub :=
  Registry.pub_events H valid ops hf

example : Sample.registry.Filed ∧ (AMap.get Sample.registry.indies Sample.registry.pub).map Indie.prekeys = some [100] :=
  ⟨Sample.registry_filed, by decide +kernel⟩

/-- C57 fails for contact cards: anybody can sign with the well-known key of the public individual, and a contact card so
signed rotates its prekey away. -/
theorem C57_fails :
    ∃ (H : KeyOp → Nat) (valid : KeyOp → Bool) (r r' : Registry) (card : KeyOp), Function.Injective H ∧ r.Authentic valid ∧
      valid card = true ∧ card.issuer = r.pub ∧ r.receiveContactCard H valid card = (r', .ok ()) ∧
      (AMap.get r.indies r.pub).map Indie.prekeys = some [100] ∧ (AMap.get r'.indies r.pub).map Indie.prekeys = some [66] :=
  ⟨Sample.H, Sample.valid, Sample.registry,
    (Sample.registry.receiveContactCard Sample.H Sample.valid ⟨0, 0, .rotate 100 66⟩).1, ⟨0, 0, .rotate 100 66⟩,
    Sample.H_injective, Sample.registry_authentic, by decide, rfl, by decide +kernel, by decide +kernel, by decide +kernel⟩

/-! ## C69 — the owner can open what is sent to its prekeys -/

/-- C69, the part that holds: on a device that generated the agent and then rotated, expanded and imported, the secret of every
active prekey is known. Missing: prekeys another device of the same agent published, until its secrets are imported
(`C69_fails`). -/
theorem C69_own_device_partial {H : KeyOp → Nat} {valid : KeyOp → Bool} {pk : Secret → Key} {S : Body → Option KeyOp} {me : Id}
    (hS : SignsFor valid me S) {a : Active} (h : Device H valid pk S me a) (k : Key) (hk : k ∈ a.indie.prekeys) :
    ∃ sk, AMap.get a.pairs k = some sk ∧ pk sk = k := by
  obtain ⟨h1, h2⟩ := h.inv hS
  have := h2 k hk
  unfold AMap.contains at this
  rw [Option.isSome_iff_exists] at this
  obtain ⟨sk, hsk⟩ := this
  exact ⟨sk, hsk, h1 k sk hsk⟩

example : ∃ a a' op, Active.generate Sample.H Sample.valid id (Sample.sign 7) 7 1 [2, 3] = .ok a ∧
    a.rotatePrekey Sample.H id (Sample.sign 7) 2 9 = .ok (a', op) ∧ 9 ∈ a'.indie.prekeys ∧ 2 ∉ a'.indie.prekeys := by
  refine ⟨(Active.generate Sample.H Sample.valid id (Sample.sign 7) 7 1 [2, 3]).toOption.getD
    ⟨Indie.new Sample.H (add 1), []⟩, _, _, ?_, rfl, ?_⟩ <;> decide +kernel

/-- C69 fails across devices: a device accepts the prekeys its agent published from another device as its own active prekeys,
without having their secrets. -/
theorem C69_fails :
    ∃ (H : KeyOp → Nat) (valid : KeyOp → Bool) (pk : Secret → Key) (S : Body → Option KeyOp) (a : Active) (op : KeyOp)
      (i : Indie), Function.Injective H ∧ SignsFor valid 7 S ∧ Device H valid pk S 7 a ∧ S (.add 9) = some op ∧
      a.indie.receive H valid op = .ok i ∧ 9 ∈ i.prekeys ∧ AMap.get a.pairs 9 = none := by
  refine ⟨Sample.H, Sample.valid, id, Sample.sign 7,
    (Active.generate Sample.H Sample.valid id (Sample.sign 7) 7 1 [2, 3]).toOption.getD ⟨Indie.new Sample.H (add 1), []⟩,
    add 9, Sample.receiveAll ((Active.generate Sample.H Sample.valid id (Sample.sign 7) 7 1 [2, 3]).toOption.getD
      ⟨Indie.new Sample.H (add 1), []⟩).indie [add 9], Sample.H_injective, Sample.signsFor 7,
    Device.generate 1 [2, 3] (by decide +kernel), rfl, by decide +kernel, by decide +kernel, by decide +kernel⟩

end Verif.Prekey.Props
