import Verif.Cgka.CutOffLemmas
import Verif.Cgka.GainProps
import Verif.Cgka.TogetherProps

/-!
# Removed members' devices and stolen keys do not open later content (C07, C08), with key updates made at the same time

The vocabulary is in `Verif.Cgka.CutOffSpec`, `Verif.Cgka.TogetherSpec`, `Verif.Cgka.GainSpec`, `Verif.Cgka.SecrecySpec` and `Verif.BeeKem.Spec`.
-/

namespace Verif.Cgka.CutOffProps

open Verif.BeeKem

/-- **C07 and C08** for everything published: `w` is a replica that knows an operation that comes after all others it knows, in whose history
members may have updated their keys at the same time, and `c` is one that has everybody's operations, concurrent or not. Secrets that `w`'s operations
gave only to members whose keys were replaced or withdrawn since do not lead to the group secret of `w`. -/
theorem C07_C08_outdated_keys_partial {H : SOp → Nat} (hH : Function.Injective H) {c w : Cgka} (hc : Trusted H c) (hw : Trusted H w)
    (h1 : ChangesApart w) (h2 : UpdatesInTurn w) {x : Nat} (hx : w.graph.heads = [x]) (hk : ∀ y, Knows w y → Knows c y) (hf : FreshKeys c)
    (hd : DistinctKeys c) {K : Sk → Prop}
    (hK : ∀ s, K s → ∀ y o, AMap.get w.graph.ops y = some o → s ∈ o.payload.brought ∨ s ∈ o.payload.made → Outdated w y) {r : Sk}
    (hr : Spec.RootSecret w.tree r) : ¬ Spec.Derivable K (published c) r := by
  intro h
  have sw := reachOk_inv hH (trusted_ok hw)
  obtain ⟨k, m, hs⟩ := rootSecret_sole hr
  exact (outdated_secrecy hH hc hw (together_of sw.graph h1 h2 (fresh_down hH hc hw hk hf)) (by rw [hx]; rfl) hk hf hd hK h).1 k m hs

/-- The same for the key under which a replica writes. -/
theorem outdated_device {H : SOp → Nat} (hH : Function.Injective H) {c w w' : Cgka} (hc : Trusted H c) {K : Sk → Prop}
    (hdev : Device H K c) (hw : Trusted H w) {sign : Payload → Res SOp} (hs : GoodSigner sign) {g : BeeKem.Gen} {n r ps : Nat}
    {s : AppSecret} {op : Option SOp} (he : w.newAppSecretFor H sign g n r ps = (w', .ok (s, op))) (h1 : ChangesApart w') (h2 : UpdatesInTurn w')
    (hk : ∀ y, Knows w' y → Knows c y) (hf : FreshKeys c) (hd : DistinctKeys c)
    (hK : ∀ s, K s → ∀ y o, AMap.get w'.graph.ops y = some o → s ∈ o.payload.brought ∨ s ∈ o.payload.made → Outdated w' y)
    {plain : Nat} {k : AppKey} (h : (c.decryptionKeyFor H (s.encrypt plain)).2 = .ok k) : (s.encrypt plain).openWith k = none := by
  have hstep : w' = step H w (.encrypt sign g n r ps) := by show w' = (w.newAppSecretFor H sign g n r ps).1; rw [he]
  have hw' : Trusted H w' := by rw [hstep]; exact .call hw trivial hs
  have sw := reachOk_inv hH (trusted_ok hw)
  have sw' := reachOk_inv hH (trusted_ok hw')
  have hsub : KnownIn w.graph w'.graph := by
    intro y hy
    rcases own_graph H w (cmd := .encrypt sign g n r ps) trivial (Sample.good_honest hs) with hg | ⟨o, _, hg⟩
    · rw [hstep, hg]; exact hy
    · rw [hstep, hg]
      show AMap.get (AMap.insert w.graph.ops (H o) o) y ≠ none
      rw [AMap.get_insert]
      split
      · simp
      · exact hy
  have T := together_of sw'.graph h1 h2 (fresh_down hH hc hw' hk hf)
  obtain ⟨k0, o0, e1, _, e3⟩ := joined_root hH hw hs he (T.sub hH sw.graph sw'.graph hsub)
  refine GainProps.C90_stays_closed hH hdev ?_ h
  intro hder
  have hpcs : s.key.pcs = k0 := by rw [e1]; rfl
  rw [hpcs] at hder
  obtain ⟨hh, hfit⟩ := reach_fit (Props.reachOk_reach (trusted_ok hw'))
  obtain ⟨k, m, hso⟩ := root_sole hfit e3
  exact (outdated_secrecy hH hc hw' T (encrypt_head he) hk hf hd hK hder).1 k m hso

/-- **C07**, on devices, for writers in whose history members may have updated their keys at the same time, but added and removed members
while nobody did anything else. `z` removes `id`, and `id` is not added again; a member who knows that writes.
A device whose secrets are, as far as the writer knows, only `id`'s — even with everybody's operations, concurrent ones included — gets no key
that opens what was written. -/
theorem C07_removed_device_cannot_read_partial {H : SOp → Nat} (hH : Function.Injective H) {c w w' : Cgka} (hc : Trusted H c) {K : Sk → Prop}
    (hdev : Device H K c) (hw : Trusted H w) {sign : Payload → Res SOp} (hs : GoodSigner sign) {g : BeeKem.Gen} {n r ps : Nat}
    {s : AppSecret} {op : Option SOp} (he : w.newAppSecretFor H sign g n r ps = (w', .ok (s, op))) (h1 : ChangesApart w') (h2 : UpdatesInTurn w')
    (hk : ∀ y, Knows w' y → Knows c y) (hf : FreshKeys c) (hd : DistinctKeys c)
    {id : MemberId} {z i : Nat} {oz : SOp} {rk : List Pk} {qs : List Nat} (hz : AMap.get w'.graph.ops z = some oz)
    (hrem : oz.payload = .remove id i rk qs) (hlast : ∀ y o, AMap.get w'.graph.ops y = some o → o.payload.GivesTo id → Before w' y z)
    (hK : ∀ s, K s → OnlyOf w' id s)
    {plain : Nat} {k : AppKey} (h : (c.decryptionKeyFor H (s.encrypt plain)).2 = .ok k) : (s.encrypt plain).openWith k = none := by
  refine outdated_device hH hc hdev hw hs he h1 h2 hk hf hd ?_ h
  intro s hs y o hy hu
  have hg := hK s hs y o hy hu
  exact ⟨o, id, z, oz, hy, hg, hz, by rw [hrem]; rfl, hlast y o hy hg⟩

/-- **C08**, on devices, for the same writers. `z` is a key update of `id`; a member who knows it writes. A device whose
secrets are, as far as the writer knows, only ones that `id` was given before `z` — stolen from `id`, say — gets no key that opens what was
written, even with everybody's operations. -/
theorem C08_stolen_keys_cannot_read_partial {H : SOp → Nat} (hH : Function.Injective H) {c w w' : Cgka} (hc : Trusted H c) {K : Sk → Prop}
    (hdev : Device H K c) (hw : Trusted H w) {sign : Payload → Res SOp} (hs : GoodSigner sign) {g : BeeKem.Gen} {n r ps : Nat}
    {s : AppSecret} {op : Option SOp} (he : w.newAppSecretFor H sign g n r ps = (w', .ok (s, op))) (h1 : ChangesApart w') (h2 : UpdatesInTurn w')
    (hk : ∀ y, Knows w' y → Knows c y) (hf : FreshKeys c) (hd : DistinctKeys c)
    {id : MemberId} {z : Nat} {oz : SOp} {pc : PathChange} {qs : List Nat} (hz : AMap.get w'.graph.ops z = some oz)
    (hupd : oz.payload = .update id pc qs) (hK : ∀ s, K s → OnlyOf w' id s)
    (hold : ∀ s, K s → ∀ y o, AMap.get w'.graph.ops y = some o → s ∈ o.payload.brought ∨ s ∈ o.payload.made → Before w' y z)
    {plain : Nat} {k : AppKey} (h : (c.decryptionKeyFor H (s.encrypt plain)).2 = .ok k) : (s.encrypt plain).openWith k = none := by
  refine outdated_device hH hc hdev hw hs he h1 h2 hk hf hd ?_ h
  intro s hs y o hy hu
  exact ⟨o, id, z, oz, hy, hK s hs y o hy hu, hz, by rw [hupd]; rfl, hold s hs y o hy hu⟩

namespace Example

open Verif.Cgka.Sample (start gen sign sign_good node box o0 o1 o2 o3 o4 honest_one)
open Verif.Cgka.ForkSample (recvAll)
open Verif.Cgka.GainProps.Example (recvAll_device)

/-- Alice's update after removing Carol. -/
def p5 : SOp := ⟨.update 1
  { leafId := 1, leafIdx := 0, leafPk := .share ⟨13⟩
    path := [node 0 1040 13 [(.leaf 1, box 13 22 1040 22), (.leaf 0, box 13 22 1040 22)],
             node 1 1041 1040 [(.inner 0, box 1040 1042 1041 1042)]]
    removedKeys := [⟨12⟩, ⟨1000⟩] } [4], 0, 5⟩
/-- Carol's update, concurrent with their removal. -/
def p6 : SOp := ⟨.update 3
  { leafId := 3, leafIdx := 2, leafPk := .share ⟨34⟩
    path := [node 2 2050 34 [(.leaf 2, box 34 2051 2050 2051)],
             node 1 2052 2050 [(.inner 0, box 1000 2050 2052 1000), (.inner 2, box 1000 2050 2052 1000)]]
    removedKeys := [⟨33⟩, ⟨1001⟩] } [3], 0, 6⟩
/-- Bob's update after Alice's. -/
def p7 : SOp := ⟨.update 2
  { leafId := 2, leafIdx := 1, leafPk := .share ⟨23⟩
    path := [node 0 1060 23 [(.leaf 0, box 13 23 1060 13), (.leaf 1, box 13 23 1060 13)],
             node 1 1061 1060 [(.inner 0, box 1060 1062 1061 1062)]]
    removedKeys := [⟨22⟩, ⟨1040⟩, ⟨1041⟩] } [5], 0, 7⟩

/-- Bob's update at the same time as Alice's `p5`. -/
def p8 : SOp := ⟨.update 2
  { leafId := 2, leafIdx := 1, leafPk := .share ⟨24⟩
    path := [node 0 1070 24 [(.leaf 0, box 12 24 1070 12), (.leaf 1, box 12 24 1070 12)],
             node 1 1071 1070 [(.inner 0, box 1070 1072 1071 1072)]]
    removedKeys := [⟨22⟩, ⟨1000⟩] } [4], 0, 8⟩
/-- Alice's update when they write after `p5` and `p8`. -/
def p9 : SOp := ⟨.update 1
  { leafId := 1, leafIdx := 0, leafPk := .share ⟨1080⟩
    path := [node 0 1081 1080 [(.leaf 1, box 24 1080 1081 24), (.leaf 0, box 24 1080 1081 24)],
             node 1 1082 1081 [(.inner 0, box 1081 1083 1082 1083)]]
    removedKeys := [⟨13⟩, ⟨1040⟩, ⟨1070⟩, ⟨1041⟩, ⟨1071⟩] } [8, 5], 0, 9⟩

noncomputable def H : SOp → Nat := tableH [o0, o1, o2, o3, o4, p5, p6, p7, p8, p9]
theorem H_inj : Function.Injective H := tableH_injective _
theorem start_new : Cgka.newFromInitAdd H 1 ⟨11⟩ o0 = .ok start := by decide +kernel
theorem owner_trusted (me : MemberId) (sk : Sk) : Trusted H (start.withNewOwner me [(⟨sk⟩, sk)]) :=
  .owner me _ (.new ⟨0, [], rfl⟩ start_new) (honest_one sk)

noncomputable def alice4 : Cgka := step H (ForkSample.alice3 H) (.remove (sign 4) 3)
noncomputable def alice5 : Cgka := step H alice4 (.update (sign 5) gen 40 13)
noncomputable def bob5 : Cgka := recvAll H (start.withNewOwner 2 [(⟨22⟩, 22)]) [o1, o2, o3, o4, p5]
noncomputable def bob7 : Cgka := step H bob5 (.update (sign 7) gen 60 23)
/-- Carol's randomness. -/
def gen2 (n : Nat) : Sk := 2000 + n
noncomputable def carol3 : Cgka := recvAll H (start.withNewOwner 3 [(⟨33⟩, 33)]) [o1, o2, o3]
noncomputable def carol6 : Cgka := step H carol3 (.update (sign 6) gen2 50 34)
/-- Carol's device in the end, with everybody's operations. -/
noncomputable def carol : Cgka := recvAll H carol6 [o4, p5, p7]
/-- A device with the key Bob was added with, and everybody's operations. -/
noncomputable def thief : Cgka := recvAll H (start.withNewOwner 2 [(⟨22⟩, 22)]) [o1, o2, o3, o4, p5, p7]

/-- Bob's device when they update at the same time as Alice. -/
noncomputable def bob8 : Cgka := step H (recvAll H (start.withNewOwner 2 [(⟨22⟩, 22)]) [o1, o2, o3, o4]) (.update (sign 8) gen 70 24)
/-- Alice has both updates. -/
noncomputable def alice8 : Cgka := recvAll H alice5 [p8]
noncomputable def alice9 : Cgka := step H alice8 (.encrypt (sign 9) gen 80 5 6)
/-- Carol's device and the one with Bob's first key, with everybody's operations. -/
noncomputable def carolAll : Cgka := recvAll H carol [p8, p9]
noncomputable def thiefAll : Cgka := recvAll H thief [p8, p9]

theorem alice3_trusted : Trusted H (ForkSample.alice3 H) :=
  .call (cmd := .update (sign 3) gen 0 12) (.call (cmd := .add (sign 2) 3 ⟨33⟩) (.call (cmd := .add (sign 1) 2 ⟨22⟩)
    (owner_trusted 1 11) trivial (sign_good 1)) trivial (sign_good 2)) trivial (sign_good 3)
theorem alice4_trusted : Trusted H alice4 := .call alice3_trusted trivial (sign_good 4)
theorem alice5_trusted : Trusted H alice5 := .call alice4_trusted trivial (sign_good 5)
theorem bob7_trusted : Trusted H bob7 := by
  refine .call (recvAll_trusted (owner_trusted 2 22) _ ?_) trivial (sign_good 7)
  have h : ∀ o ∈ [o1, o2, o3, o4, p5], AMap.get alice5.graph.ops (H o) = some o := by decide +kernel
  exact fun o ho => ⟨alice5, H o, alice5_trusted, h o ho⟩
theorem all_known : ∀ o ∈ [o1, o2, o3, o4, p5, p7], ∃ d x, Trusted H d ∧ AMap.get d.graph.ops x = some o := by
  have h : ∀ o ∈ [o1, o2, o3, o4, p5, p7], AMap.get bob7.graph.ops (H o) = some o := by decide +kernel
  exact fun o ho => ⟨bob7, H o, bob7_trusted, h o ho⟩
theorem carol6_trusted : Trusted H carol6 := by
  refine .call (recvAll_trusted (owner_trusted 3 33) _ (fun o ho => all_known o ?_)) trivial (sign_good 6)
  revert o; decide +kernel
theorem carol_trusted : Trusted H carol := by
  refine recvAll_trusted carol6_trusted _ (fun o ho => all_known o ?_)
  revert o; decide +kernel
theorem thief_trusted : Trusted H thief := recvAll_trusted (owner_trusted 2 22) _ all_known

theorem bob8_trusted : Trusted H bob8 := by
  refine .call (recvAll_trusted (owner_trusted 2 22) _ (fun o ho => all_known o ?_)) trivial (sign_good 8)
  revert o; decide +kernel
theorem alice8_trusted : Trusted H alice8 := by
  refine recvAll_trusted alice5_trusted _ ?_
  have h : ∀ o ∈ [p8], AMap.get bob8.graph.ops (H o) = some o := by decide +kernel
  exact fun o ho => ⟨bob8, H o, bob8_trusted, h o ho⟩
theorem alice9_trusted : Trusted H alice9 := .call alice8_trusted trivial (sign_good 9)
theorem later_known : ∀ o ∈ [p8, p9], ∃ d x, Trusted H d ∧ AMap.get d.graph.ops x = some o := by
  have h : ∀ o ∈ [p8, p9], AMap.get alice9.graph.ops (H o) = some o := by decide +kernel
  exact fun o ho => ⟨alice9, H o, alice9_trusted, h o ho⟩
theorem carolAll_trusted : Trusted H carolAll := recvAll_trusted carol_trusted _ later_known
theorem thiefAll_trusted : Trusted H thiefAll := recvAll_trusted thief_trusted _ later_known

/-- What Carol's device starts with and draws. -/
def carols (s : Sk) : Prop := s = 33 ∨ s = 34 ∨ 2000 ≤ s

theorem carol_device : Device H carols carol := by
  refine recvAll_device (.call (cmd := .update (sign 6) gen2 50 34) (recvAll_device (.owner 3 [(⟨33⟩, 33)] (.new ⟨0, [], rfl⟩ start_new)
    (by simp [carols])) _) ?_ ⟨.inr (.inl rfl), fun m _ => .inr (.inr (show 2000 ≤ 2000 + m from Nat.le_add_right _ _))⟩) _
  exact Sample.good_honest (sign_good 6)

theorem thief_device : Device H (· = 22) thief :=
  recvAll_device (.owner 2 [(⟨22⟩, 22)] (.new ⟨0, [], rfl⟩ start_new) (by simp)) _

theorem carolAll_device : Device H carols carolAll := recvAll_device carol_device _
theorem thiefAll_device : Device H (· = 22) thiefAll := recvAll_device thief_device _

/-- Checks `DistinctKeys`. -/
def distinctCheck (c : Cgka) : Bool := c.graph.ops.all (fun p => decide p.2.payload.made.Nodup)

theorem distinct_of {c : Cgka} (h : distinctCheck c = true) : DistinctKeys c := by
  intro x o hx
  have := List.all_eq_true.1 h _ (AMap.mem_of_get hx)
  simpa using this

/-- The operations that bring or make one of the secrets in `p`. -/
def users (c : Cgka) (p : Sk → Bool) : List (Nat × SOp) := c.graph.ops.filter (fun q => (q.2.payload.brought ++ q.2.payload.made).any p)

theorem users_of {c : Cgka} {p : Sk → Bool} {s : Sk} (hs : p s = true) {y : Nat} {o : SOp} (hy : AMap.get c.graph.ops y = some o)
    (h : s ∈ o.payload.brought ∨ s ∈ o.payload.made) : (y, o) ∈ users c p := by
  refine List.mem_filter.2 ⟨AMap.mem_of_get hy, List.any_eq_true.2 ⟨s, ?_, hs⟩⟩
  rw [List.mem_append]; exact h

-- What Alice and Bob write after removing Carol, Carol's device cannot read, although it went on and has everybody's operations.
example : ∀ w ∈ [alice5, bob7], ∀ w' s op plain k, w.newAppSecretFor H (sign 9) gen 80 5 6 = (w', .ok (s, op)) →
    (carol.decryptionKeyFor H (s.encrypt plain)).2 = .ok k → (s.encrypt plain).openWith k = none := by
  intro w hw w' s op plain k he h
  have hw' : w' = (w.newAppSecretFor H (sign 9) gen 80 5 6).1 := by rw [he]
  have main : ∀ (w : Cgka), Trusted H w → (w' = (w.newAppSecretFor H (sign 9) gen 80 5 6).1) → w.newAppSecretFor H (sign 9) gen 80 5 6 = (w', .ok (s, op)) →
      changesCheck w' = true → turnsCheck w' = true → (∀ y ∈ AMap.keys w'.graph.ops, y ∈ AMap.keys carol.graph.ops) → AMap.get w'.graph.ops 4 = some o4 →
      (∀ q ∈ w'.graph.ops, (match q.2.payload with | .add i .. => decide (i = 3) | .update i .. => decide (i = 3) | _ => false) = true → q.1 = 2) →
      Before w' 2 4 → (users w' (fun s => decide (s = 33 ∨ s = 34 ∨ 2000 ≤ s)) = [(2, o2)]) → (s.encrypt plain).openWith k = none := by
    intro w hw hw' he hl hl' hk h4 hg hb hu
    refine C07_removed_device_cannot_read_partial H_inj carol_trusted carol_device hw (sign_good 9) he (changes_of hl) (turns_of hl') ?_ (fresh_of (by decide +kernel))
      (distinct_of (by decide +kernel)) (id := 3) (z := 4) (oz := o4) h4 rfl ?_ ?_ h
    · intro y; rw [knows_iff, knows_iff, ← AMap.mem_keys_iff, ← AMap.mem_keys_iff]; exact hk y
    · intro y o hy hgy
      have : y = 2 := by
        refine hg (y, o) (AMap.mem_of_get hy) ?_
        show (match o.payload with | .add i .. => decide (i = 3) | .update i .. => decide (i = 3) | _ => false) = true
        cases hp : o.payload <;> rw [hp] at hgy <;> simp only [Payload.GivesTo] at hgy
        · exact decide_eq_true hgy
        · exact decide_eq_true hgy
      rw [this]; exact hb
    · intro s hs y o hy hu'
      have := users_of (p := fun s => decide (s = 33 ∨ s = 34 ∨ 2000 ≤ s)) (decide_eq_true hs) hy hu'
      rw [hu] at this
      simp only [List.mem_singleton, Prod.mk.injEq] at this
      rw [this.2]; rfl
  simp only [List.mem_cons, List.not_mem_nil, or_false] at hw
  rcases hw with rfl | rfl
  · refine main alice5 alice5_trusted hw' he (by rw [hw']; decide +kernel) (by rw [hw']; decide +kernel) (by rw [hw']; decide +kernel) (by rw [hw']; decide +kernel)
      (by rw [hw']; decide +kernel) ?_ (by rw [hw']; decide +kernel)
    · exact .more (x := 3) (.direct ⟨o3, by rw [hw']; decide +kernel, by decide +kernel⟩) ⟨o4, by rw [hw']; decide +kernel, by decide +kernel⟩
  · refine main bob7 bob7_trusted hw' he (by rw [hw']; decide +kernel) (by rw [hw']; decide +kernel) (by rw [hw']; decide +kernel) (by rw [hw']; decide +kernel)
      (by rw [hw']; decide +kernel) ?_ (by rw [hw']; decide +kernel)
    · exact .more (x := 3) (.direct ⟨o3, by rw [hw']; decide +kernel, by decide +kernel⟩) ⟨o4, by rw [hw']; decide +kernel, by decide +kernel⟩

-- The device with Bob's first key reads what Alice writes before Bob's update, under the secret `1041`.
example : (match alice5.newAppSecretFor H (sign 9) gen 80 5 6 with
    | (_, .ok (s, _)) => match (thief.decryptionKeyFor H (s.encrypt 7)).2 with
      | .ok k => decide (k.pcs = 1041) && decide ((s.encrypt 7).openWith k = some 7)
      | .error _ => false
    | _ => false) = true := by decide +kernel

-- It does not read what Bob writes after their update.
example : ∀ w' s op plain k, bob7.newAppSecretFor H (sign 9) gen 80 5 6 = (w', .ok (s, op)) →
    (thief.decryptionKeyFor H (s.encrypt plain)).2 = .ok k → (s.encrypt plain).openWith k = none := by
  intro w' s op plain k he h
  have hw' : w' = (bob7.newAppSecretFor H (sign 9) gen 80 5 6).1 := by rw [he]
  have hu : users w' (fun s => decide (s = 22)) = [(1, o1)] := by rw [hw']; decide +kernel
  have h17 : Before w' 1 7 := by
    have : AMap.get w'.graph.ops 2 = some o2 ∧ AMap.get w'.graph.ops 3 = some o3 ∧ AMap.get w'.graph.ops 4 = some o4 ∧
        AMap.get w'.graph.ops 5 = some p5 ∧ AMap.get w'.graph.ops 7 = some p7 := by rw [hw']; decide +kernel
    obtain ⟨h2, h3, h4, h5, h7⟩ := this
    exact .more (.more (.more (.more (.direct ⟨o2, h2, by decide +kernel⟩) ⟨o3, h3, by decide +kernel⟩) ⟨o4, h4, by decide +kernel⟩)
      ⟨p5, h5, by decide +kernel⟩) ⟨p7, h7, by decide +kernel⟩
  refine C08_stolen_keys_cannot_read_partial H_inj thief_trusted thief_device bob7_trusted (sign_good 9) he (changes_of (by rw [hw']; decide +kernel))
      (turns_of (by rw [hw']; decide +kernel)) ?_ (fresh_of (by decide +kernel))
      (distinct_of (by decide +kernel)) (id := 2) (z := 7) (oz := p7) (by rw [hw']; decide +kernel) rfl ?_ ?_ h
  · intro y; rw [knows_iff, knows_iff, ← AMap.mem_keys_iff, ← AMap.mem_keys_iff, hw']; revert y; decide +kernel
  · rintro s rfl y o hy hu'
    have := users_of (p := fun s => decide (s = 22)) rfl hy hu'
    rw [hu] at this
    simp only [List.mem_singleton, Prod.mk.injEq] at this
    rw [this.2]; rfl
  · rintro s rfl y o hy hu'
    have := users_of (p := fun s => decide (s = 22)) rfl hy hu'
    rw [hu] at this
    simp only [List.mem_singleton, Prod.mk.injEq] at this
    rw [this.1]; exact h17

-- They do write, under the secrets `1041` and `1061`.
example : (match (alice5.newAppSecretFor H (sign 9) gen 80 5 6).2, (bob7.newAppSecretFor H (sign 9) gen 80 5 6).2 with
    | .ok (s, _), .ok (s', _) => decide (s.key.pcs = 1041 ∧ s'.key.pcs = 1061) | _, _ => false) = true := by decide +kernel

-- Alice and Bob update their keys at the same time, then Alice writes. Neither Carol's device nor the one with Bob's first key can read it.
example : leadsTo alice8 9 5 8 = false ∧ leadsTo alice8 9 8 5 = false ∧
    ∀ w' s op plain, alice8.newAppSecretFor H (sign 9) gen 80 5 6 = (w', .ok (s, op)) →
      (∀ k, (carolAll.decryptionKeyFor H (s.encrypt plain)).2 = .ok k → (s.encrypt plain).openWith k = none) ∧
      (∀ k, (thiefAll.decryptionKeyFor H (s.encrypt plain)).2 = .ok k → (s.encrypt plain).openWith k = none) := by
  refine ⟨by decide +kernel, by decide +kernel, ?_⟩
  intro w' s op plain he
  have hw' : w' = alice9 := by show w' = (alice8.newAppSecretFor H (sign 9) gen 80 5 6).1; rw [he]
  subst hw'
  have hc : ChangesApart alice9 := changes_of (by decide +kernel)
  have ht : UpdatesInTurn alice9 := turns_of (by decide +kernel)
  have hkn : ∀ {c : Cgka}, (∀ y ∈ AMap.keys alice9.graph.ops, y ∈ AMap.keys c.graph.ops) → ∀ y, Knows alice9 y → Knows c y := by
    intro c h y; rw [knows_iff, knows_iff, ← AMap.mem_keys_iff, ← AMap.mem_keys_iff]; exact h y
  constructor
  · intro k h
    refine C07_removed_device_cannot_read_partial H_inj carolAll_trusted carolAll_device alice8_trusted (sign_good 9) he hc ht
      (hkn (by decide +kernel)) (fresh_of (by decide +kernel)) (distinct_of (by decide +kernel)) (id := 3) (z := 4) (oz := o4)
      (by decide +kernel) rfl ?_ ?_ h
    · intro y o hy hgy
      have hg : ∀ q ∈ alice9.graph.ops,
          (match q.2.payload with | .add i .. => decide (i = 3) | .update i .. => decide (i = 3) | _ => false) = true → q.1 = 2 := by
        decide +kernel
      have : y = 2 := by
        refine hg (y, o) (AMap.mem_of_get hy) ?_
        show (match o.payload with | .add i .. => decide (i = 3) | .update i .. => decide (i = 3) | _ => false) = true
        cases hp : o.payload <;> rw [hp] at hgy <;> simp only [Payload.GivesTo] at hgy
        · exact decide_eq_true hgy
        · exact decide_eq_true hgy
      rw [this]; exact before_of (n := 9) (by decide +kernel)
    · intro s hs y o hy hu'
      have := users_of (p := fun s => decide (s = 33 ∨ s = 34 ∨ 2000 ≤ s)) (decide_eq_true hs) hy hu'
      have hu : users alice9 (fun s => decide (s = 33 ∨ s = 34 ∨ 2000 ≤ s)) = [(2, o2)] := by decide +kernel
      rw [hu] at this
      simp only [List.mem_singleton, Prod.mk.injEq] at this
      rw [this.2]; rfl
  · intro k h
    have hu : users alice9 (fun s => decide (s = 22)) = [(1, o1)] := by decide +kernel
    refine C08_stolen_keys_cannot_read_partial H_inj thiefAll_trusted thiefAll_device alice8_trusted (sign_good 9) he hc ht
      (hkn (by decide +kernel)) (fresh_of (by decide +kernel)) (distinct_of (by decide +kernel)) (id := 2) (z := 8) (oz := p8)
      (by decide +kernel) rfl ?_ ?_ h
    · rintro s rfl y o hy hu'
      have := users_of (p := fun s => decide (s = 22)) rfl hy hu'
      rw [hu] at this
      simp only [List.mem_singleton, Prod.mk.injEq] at this
      rw [this.2]; rfl
    · rintro s rfl y o hy hu'
      have := users_of (p := fun s => decide (s = 22)) rfl hy hu'
      rw [hu] at this
      simp only [List.mem_singleton, Prod.mk.injEq] at this
      rw [this.1]; exact before_of (n := 9) (by decide +kernel)

-- Alice does write, with a key update, under the secret `1082`.
example : (match (alice8.newAppSecretFor H (sign 9) gen 80 5 6).2 with
    | .ok (s, some o) => decide (s.key.pcs = 1082 ∧ o = p9) | _ => false) = true := by decide +kernel

-- Bob's first key does not lead to that secret, with whatever was published.
example : Spec.RootSecret alice9.tree 1082 ∧ ¬ Spec.Derivable (· = 22) (published thiefAll) 1082 := by
  have hr : Spec.RootSecret alice9.tree 1082 :=
    ⟨1, ⟨[⟨⟨1082⟩, [(.inner 0, box 1081 1083 1082 1083)], ⟨1081⟩⟩]⟩, ⟨⟨1082⟩, [(.inner 0, box 1081 1083 1082 1083)], ⟨1081⟩⟩,
      by decide +kernel, by decide +kernel, rfl, rfl⟩
  refine ⟨hr, C07_C08_outdated_keys_partial H_inj thiefAll_trusted alice9_trusted (changes_of (by decide +kernel)) (turns_of (by decide +kernel))
    (x := 9) (by decide +kernel) ?_ (fresh_of (by decide +kernel)) (distinct_of (by decide +kernel)) ?_ hr⟩
  · intro y; rw [knows_iff, knows_iff, ← AMap.mem_keys_iff, ← AMap.mem_keys_iff]; revert y; decide +kernel
  · rintro s rfl y o hy hu'
    have := users_of (p := fun s => decide (s = 22)) rfl hy hu'
    have hu : users alice9 (fun s => decide (s = 22)) = [(1, o1)] := by decide +kernel
    rw [hu] at this
    simp only [List.mem_singleton, Prod.mk.injEq] at this
    obtain ⟨rfl, rfl⟩ := this
    exact ⟨o1, 2, 8, p8, hy, rfl, by decide +kernel, rfl, before_of (n := 9) (by decide +kernel)⟩

end Example

end Verif.Cgka.CutOffProps
