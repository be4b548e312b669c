import Verif.Prekey.Spec
import Verif.Core.Props
import Mathlib.Data.List.Perm.Subperm
import Mathlib.Data.List.Nodup
import Mathlib.Tactic.NormNum

/-! # Lemmas about prekey state -/

namespace Verif.Prekey

theorem introduced_iff (ops : List KeyOp) (k : Key) : Introduced ops k ↔ ∃ o ∈ ops, o.newKey = k := by
  constructor
  · rintro ⟨o, h, hb⟩
    refine ⟨o, h, ?_⟩
    rcases hb with hb | ⟨old, hb⟩ <;> simp [KeyOp.newKey, hb]
  · rintro ⟨o, h, hk⟩
    refine ⟨o, h, ?_⟩
    unfold KeyOp.newKey at hk
    split at hk
    · rename_i hb; exact .inl (by rw [hb, hk])
    · rename_i old new hb; exact .inr ⟨old, by rw [hb, hk]⟩

theorem oldKey_iff (o : KeyOp) (k : Key) : o.oldKey = some k ↔ ∃ new, o.body = .rotate k new := by
  unfold KeyOp.oldKey
  split
  · rename_i hb; simp [hb]
  · rename_i old new hb
    simp [hb]

theorem retired_iff (ops : List KeyOp) (k : Key) : Retired ops k ↔ ∃ o ∈ ops, o.oldKey = some k := by
  simp only [Retired, oldKey_iff]

namespace State

theorem buildStep_eq (acc : List Key × List Key) (o : KeyOp) :
    buildStep acc o = (sinsert acc.1 o.newKey, acc.2 ++ o.oldKey.toList) := by
  unfold buildStep KeyOp.newKey KeyOp.oldKey
  split <;> simp_all

theorem foldl_step (ops : List KeyOp) : ∀ (acc : List Key × List Key),
    (∀ k, k ∈ (ops.foldl buildStep acc).1 ↔ k ∈ acc.1 ∨ Introduced ops k) ∧
    (∀ k, k ∈ (ops.foldl buildStep acc).2 ↔ k ∈ acc.2 ∨ Retired ops k) ∧
    (acc.1.Nodup → (ops.foldl buildStep acc).1.Nodup) := by
  induction ops with
  | nil => intro acc; simp [Introduced, Retired]
  | cons o ops ih =>
    intro acc
    rw [List.foldl_cons]
    obtain ⟨h1, h2, h3⟩ := ih (buildStep acc o)
    rw [buildStep_eq] at h1 h2 h3 ⊢
    refine ⟨fun k => ?_, fun k => ?_, fun hn => h3 (nodup_sinsert hn _)⟩
    · rw [h1, mem_sinsert, introduced_iff, introduced_iff]
      simp only [List.mem_cons, exists_eq_or_imp]
      constructor
      · rintro ((h | h) | h)
        · exact .inr (.inl h.symm)
        · exact .inl h
        · exact .inr (.inr h)
      · rintro (h | h | h)
        · exact .inl (.inr h)
        · exact .inl (.inl h.symm)
        · exact .inr h
    · rw [h2, retired_iff, retired_iff]
      simp only [List.mem_append, Option.mem_toList, List.mem_cons, exists_eq_or_imp]
      constructor
      · rintro ((h | h) | h)
        · exact .inl h
        · exact .inr (.inl h)
        · exact .inr (.inr h)
      · rintro (h | h | h)
        · exact .inl (.inl h)
        · exact .inl (.inr h)
        · exact .inr h

theorem mem_dropAll (l : List Key) : ∀ (ks : List Key) (k : Key), k ∈ l.foldl sremove ks ↔ k ∈ ks ∧ k ∉ l := by
  induction l with
  | nil => simp
  | cons a l ih =>
    intro ks k
    rw [List.foldl_cons, ih, mem_sremove]
    simp only [List.mem_cons, not_or]
    constructor
    · rintro ⟨⟨h1, h2⟩, h3⟩; exact ⟨h2, h1, h3⟩
    · rintro ⟨h2, h1, h3⟩; exact ⟨⟨h1, h2⟩, h3⟩

theorem nodup_dropAll (l : List Key) : ∀ (ks : List Key), ks.Nodup → (l.foldl sremove ks).Nodup := by
  induction l with
  | nil => intro ks h; exact h
  | cons a l ih => intro ks h; exact ih _ (nodup_sremove h a)

theorem mem_build (s : State) (k : Key) : k ∈ s.build ↔ IsActive (AMap.values s) k := by
  unfold build
  obtain ⟨h1, h2, _⟩ := foldl_step (AMap.values s) ([], [])
  rw [mem_dropAll, h1, h2]
  simp [IsActive]

theorem nodup_build (s : State) : s.build.Nodup :=
  nodup_dropAll _ _ ((foldl_step (AMap.values s) ([], [])).2.2 List.nodup_nil)

end State

/-- The state holds exactly the operations of `l`, each under its digest. -/
structure Holds (H : KeyOp → Nat) (s : State) (l : List KeyOp) : Prop where
  wf : AMap.WF s
  get : ∀ d o, AMap.get s d = some o ↔ d = H o ∧ o ∈ l

namespace Holds
variable {H : KeyOp → Nat}

theorem mem_values {s : State} {l : List KeyOp} (h : Holds H s l) (o : KeyOp) : o ∈ AMap.values s ↔ o ∈ l := by
  unfold AMap.values
  rw [List.mem_map]
  constructor
  · rintro ⟨⟨d, o'⟩, hm, rfl⟩
    exact ((h.get d o').1 (AMap.get_of_mem h.wf hm)).2
  · intro ho
    exact ⟨(H o, o), AMap.mem_of_get ((h.get _ _).2 ⟨rfl, ho⟩), rfl⟩

theorem nil : Holds H [] [] := ⟨AMap.wf_nil, by simp⟩

theorem insert (hH : Function.Injective H) {s : State} {l : List KeyOp} (h : Holds H s l) (op : KeyOp) :
    Holds H (CaMap.insert H s op).1 (op :: l) := by
  refine ⟨AMap.wf_insert h.wf _ _, fun d o => ?_⟩
  simp only [CaMap.insert]
  rw [AMap.get_insert]
  split
  · rename_i he
    simp only [Option.some.injEq, List.mem_cons]
    constructor
    · rintro rfl; exact ⟨he, .inl rfl⟩
    · rintro ⟨h1, _⟩; exact hH (he.symm.trans h1)
  · rename_i he
    rw [h.get]
    simp only [List.mem_cons]
    constructor
    · rintro ⟨h1, h2⟩; exact ⟨h1, .inr h2⟩
    · rintro ⟨h1, rfl | h2⟩
      · exact absurd h1 he
      · exact ⟨h1, h2⟩

theorem merge (hH : Function.Injective H) {s t : State} {l l' : List KeyOp} (h : Holds H s l) (h' : Holds H t l') :
    Holds H (CaMap.merge s t) (l ++ l') := by
  refine ⟨CaMap.wf_merge s t h.wf, fun d o => ?_⟩
  rw [CaMap.get_merge s t h'.wf, List.mem_append]
  cases hs : AMap.get s d with
  | some o' =>
    obtain ⟨k1, k2⟩ := (h.get d o').1 hs
    show some o' = some o ↔ _
    rw [Option.some.injEq]
    constructor
    · rintro rfl; exact ⟨k1, .inl k2⟩
    · rintro ⟨k3, _⟩; exact hH (k1.symm.trans k3)
  | none =>
    show AMap.get t d = some o ↔ _
    rw [h'.get]
    constructor
    · rintro ⟨k1, k2⟩; exact ⟨k1, .inr k2⟩
    · rintro ⟨k1, k2 | k2⟩
      · rw [(h.get d o).2 ⟨k1, k2⟩] at hs; cases hs
      · exact ⟨k1, k2⟩

end Holds

theorem introduced_congr {l l' : List KeyOp} (h : ∀ o, o ∈ l ↔ o ∈ l') (k : Key) : Introduced l k ↔ Introduced l' k := by
  unfold Introduced; simp only [h]

theorem retired_congr {l l' : List KeyOp} (h : ∀ o, o ∈ l ↔ o ∈ l') (k : Key) : Retired l k ↔ Retired l' k := by
  unfold Retired; simp only [h]

theorem isActive_congr {l l' : List KeyOp} (h : ∀ o, o ∈ l ↔ o ∈ l') (k : Key) : IsActive l k ↔ IsActive l' k := by
  unfold IsActive; rw [introduced_congr h, retired_congr h]

theorem introduced_cons (o : KeyOp) (l : List KeyOp) (k : Key) :
    Introduced (o :: l) k ↔ o.newKey = k ∨ Introduced l k := by
  rw [introduced_iff, introduced_iff]; simp

theorem retired_cons (o : KeyOp) (l : List KeyOp) (k : Key) :
    Retired (o :: l) k ↔ o.oldKey = some k ∨ Retired l k := by
  rw [retired_iff, retired_iff]; simp

theorem receive_ok {H : KeyOp → Nat} {valid : KeyOp → Bool} {i i' : Indie} {op : KeyOp}
    (h : i.receive H valid op = .ok i') :
    op.issuer = i.id ∧ valid op = true ∧
      i' = { i with state := (CaMap.insert H i.state op).1, prekeys := State.build (CaMap.insert H i.state op).1 } := by
  unfold Indie.receive State.insertOp at h
  by_cases h1 : op.issuer = i.id
  · cases h2 : valid op
    · simp [h1, h2, bind, Except.bind] at h
    · simp [h1, h2, bind, Except.bind, pure, Except.pure] at h
      exact ⟨h1, rfl, h.symm⟩
  · simp [h1] at h

/-- The invariant of replicas: the state holds the history and the cached keys are the active ones. -/
theorem History.inv {H : KeyOp → Nat} {valid : KeyOp → Bool} (hH : Function.Injective H) {i : Indie} {l : List KeyOp}
    (h : History H valid i l) :
    Holds H i.state l ∧ (∀ k, k ∈ i.prekeys ↔ IsActive l k) ∧ i.prekeys.Nodup ∧ l ≠ [] := by
  have fromBuild : ∀ {s : State} {l : List KeyOp}, Holds H s l → ∀ k, k ∈ s.build ↔ IsActive l k := by
    intro s l hs k
    rw [State.mem_build, isActive_congr hs.mem_values]
  induction h with
  | new op =>
    have := Holds.insert (H := H) hH Holds.nil op
    exact ⟨this, fromBuild this, State.nodup_build _, by simp⟩
  | receive op _ hr ih =>
    obtain ⟨_, _, rfl⟩ := receive_ok hr
    have := ih.1.insert hH op
    exact ⟨this, fromBuild this, State.nodup_build _, by simp⟩
  | merge _ _ _ ih ih' =>
    have := ih.1.merge hH ih'.1
    exact ⟨this, fromBuild this, State.nodup_build _, by simp [ih.2.2.2]⟩
  | rotate op old new _ hb _ hfresh hne ih =>
    refine ⟨ih.1.insert hH op, fun k => ?_, nodup_sinsert (nodup_sremove ih.2.2.1 _) _, by simp⟩
    have hn : op.newKey = new := by simp [KeyOp.newKey, hb]
    have ho : op.oldKey = some old := by simp [KeyOp.oldKey, hb]
    simp only [Indie.rotate, mem_sinsert, mem_sremove, ih.2.1]
    unfold IsActive
    rw [introduced_cons, retired_cons, hn, ho]
    simp only [Option.some.injEq, not_or]
    constructor
    · rintro (rfl | ⟨h1, h2, h3⟩)
      · exact ⟨.inl rfl, hne, hfresh.2⟩
      · exact ⟨.inr h2, fun he => h1 he.symm, h3⟩
    · rintro ⟨h1 | h1, h2, h3⟩
      · exact .inl h1.symm
      · exact .inr ⟨fun he => h2 he.symm, h1, h3⟩
  | expand op new _ hb _ hfresh ih =>
    refine ⟨ih.1.insert hH op, fun k => ?_, nodup_sinsert ih.2.2.1 _, by simp⟩
    have hn : op.newKey = new := by simp [KeyOp.newKey, hb]
    have ho : op.oldKey = none := by simp [KeyOp.oldKey, hb]
    simp only [Indie.expand, mem_sinsert, ih.2.1]
    unfold IsActive
    rw [introduced_cons, retired_cons, hn, ho]
    simp only [reduceCtorEq, false_or]
    constructor
    · rintro (rfl | ⟨h2, h3⟩)
      · exact ⟨.inl rfl, hfresh.2⟩
      · exact ⟨.inr h2, h3⟩
    · rintro ⟨h1 | h1, h3⟩
      · exact .inl h1.symm
      · exact .inr ⟨h1, h3⟩

/-- With acyclic rotations some introduced key is not retired. -/
theorem acyclic_active {l : List KeyOp} (hne : l ≠ []) (h : Acyclic l) : ∃ k, IsActive l k := by
  obtain ⟨rank, hr⟩ := h
  obtain ⟨o, ho, hmax⟩ : ∃ o ∈ l, ∀ o' ∈ l, rank o'.newKey ≤ rank o.newKey := by
    clear hr
    induction l with
    | nil => exact absurd rfl hne
    | cons a l ih =>
      by_cases hl : l = []
      · subst hl; exact ⟨a, by simp, by simp⟩
      · obtain ⟨o, ho, hm⟩ := ih hl
        by_cases hc : rank o.newKey ≤ rank a.newKey
        · refine ⟨a, by simp, ?_⟩
          intro o' ho'
          rcases List.mem_cons.1 ho' with rfl | h'
          · exact Nat.le_refl _
          · exact Nat.le_trans (hm o' h') hc
        · refine ⟨o, by simp [ho], ?_⟩
          intro o' ho'
          rcases List.mem_cons.1 ho' with rfl | h'
          · omega
          · exact hm o' h'
  refine ⟨o.newKey, (introduced_iff _ _).2 ⟨o, ho, rfl⟩, ?_⟩
  rintro ⟨o', ho', new, hb⟩
  have h1 := hr o' ho' _ _ hb
  have h2 := hmax o' ho'
  have h3 : o'.newKey = new := by simp [KeyOp.newKey, hb]
  rw [h3] at h2
  omega

theorem length_sremove (l : List Key) (x : Key) (h : l.Nodup) : l.length ≤ (sremove l x).length + 1 := by
  have hs : l ⊆ x :: sremove l x := by
    intro y hy
    by_cases hc : y = x
    · simp [hc]
    · exact List.mem_cons_of_mem _ ((mem_sremove _ _ _).2 ⟨hc, hy⟩)
  exact (List.subperm_of_subset h hs).length_le

/-! ## Sorting -/

theorem mem_rotationsOf (ops : List KeyOp) (k : Key) (o : KeyOp) :
    o ∈ rotationsOf ops k ↔ o ∈ ops ∧ o.oldKey = some k := by
  simp [rotationsOf]

/-- What holds during the second loop of `topsort`. -/
structure SortInv (ops stack out : List KeyOp) : Prop where
  nodup : (stack ++ out).Nodup
  sub : ∀ o ∈ stack ++ out, o ∈ ops
  adds : ∀ o ∈ ops, o.oldKey = none → o ∈ stack ++ out
  children : ∀ p ∈ out, ∀ o ∈ ops, o.oldKey = some p.newKey → o ∈ stack ++ out
  parent : ∀ o ∈ stack, ∀ k, o.oldKey = some k → ∃ p ∈ out, p.newKey = k
  order : InDependencyOrder out

theorem SortInv.step {ops : List KeyOp} (hn : ops.Nodup) (hown : OwnKeys ops) {h : KeyOp} {stack out : List KeyOp}
    (inv : SortInv ops (h :: stack) out) :
    SortInv ops ((rotationsOf ops h.newKey).reverse ++ stack) (out ++ [h]) := by
  have hh : h ∈ ops := inv.sub h (by simp)
  have hnd := inv.nodup
  -- no rotation of `h`'s key has been seen
  have hnew : ∀ o ∈ rotationsOf ops h.newKey, o ∉ h :: stack ++ out := by
    intro o ho hm
    obtain ⟨ho1, ho2⟩ := (mem_rotationsOf _ _ _).1 ho
    have hp : ∃ p ∈ out, p.newKey = h.newKey := by
      rcases List.mem_append.1 hm with hm | hm
      · exact inv.parent o hm _ ho2
      · obtain ⟨pre, post, e⟩ := List.append_of_mem hm
        obtain ⟨new, hb⟩ := (oldKey_iff _ _).1 ho2
        obtain ⟨p, hp, hk⟩ := (introduced_iff _ _).1 (inv.order pre o post e _ _ hb)
        exact ⟨p, by rw [e]; simp [hp], hk⟩
    obtain ⟨p, hp, hk⟩ := hp
    have : p = h := hown p (inv.sub p (by simp [hp])) h hh hk
    subst this
    simp only [List.cons_append, List.nodup_cons, List.mem_append, not_or] at hnd
    exact hnd.1.2 hp
  have hperm : ((rotationsOf ops h.newKey).reverse ++ stack ++ (out ++ [h])).Perm
      (rotationsOf ops h.newKey ++ (h :: stack ++ out)) := by
    rw [List.append_assoc]
    refine List.Perm.append (List.reverse_perm _) ?_
    rw [← List.append_assoc]
    exact (List.perm_append_comm (l₁ := stack ++ out) (l₂ := [h]))
  have hmem : ∀ o, o ∈ (rotationsOf ops h.newKey).reverse ++ stack ++ (out ++ [h]) ↔
      o ∈ rotationsOf ops h.newKey ∨ o ∈ h :: stack ++ out := by
    intro o; rw [hperm.mem_iff, List.mem_append]
  refine ⟨?_, ?_, ?_, ?_, ?_, ?_⟩
  · rw [hperm.nodup_iff, List.nodup_append]
    refine ⟨hn.filter _, hnd, ?_⟩
    rintro a ha b hb rfl
    exact hnew a ha hb
  · intro o ho
    rcases (hmem o).1 ho with h1 | h1
    · exact ((mem_rotationsOf _ _ _).1 h1).1
    · exact inv.sub o h1
  · intro o ho hk
    exact (hmem o).2 (.inr (inv.adds o ho hk))
  · intro p hp o ho hk
    rcases List.mem_append.1 hp with hp | hp
    · exact (hmem o).2 (.inr (inv.children p hp o ho hk))
    · rw [List.mem_singleton] at hp
      subst hp
      exact (hmem o).2 (.inl ((mem_rotationsOf _ _ _).2 ⟨ho, hk⟩))
  · intro o ho k hk
    rcases List.mem_append.1 ho with ho | ho
    · obtain ⟨_, h2⟩ := (mem_rotationsOf _ _ _).1 (List.mem_reverse.1 ho)
      refine ⟨h, by simp, ?_⟩
      rw [hk] at h2
      exact (Option.some.inj h2).symm
    · obtain ⟨p, hp, e⟩ := inv.parent o (by simp [ho]) k hk
      exact ⟨p, by simp [hp], e⟩
  · intro pre o post e old new hb
    by_cases hpost : post = []
    · subst hpost
      obtain ⟨e1, e2⟩ := List.append_inj' e (by simp)
      simp only [List.cons.injEq, and_true] at e2
      subst e1; subst e2
      obtain ⟨p, hp, hk⟩ := inv.parent h (by simp) old ((oldKey_iff _ _).2 ⟨new, hb⟩)
      exact (introduced_iff _ _).2 ⟨p, hp, hk⟩
    · have : post = post.dropLast ++ [post.getLast hpost] := (List.dropLast_append_getLast hpost).symm
      rw [this, ← List.cons_append, ← List.append_assoc] at e
      obtain ⟨e1, _⟩ := List.append_inj' e (by simp)
      exact inv.order pre o _ e1 old new hb

theorem topsortLoop_ok {ops : List KeyOp} (hn : ops.Nodup) (hown : OwnKeys ops) : ∀ (n : Nat) (stack out : List KeyOp),
    SortInv ops stack out → ops.length ≤ n + out.length →
    ∃ res, topsortLoop ops n stack out = some res ∧ SortInv ops [] res := by
  intro n
  induction n with
  | zero =>
    intro stack out inv hlen
    cases stack with
    | nil => exact ⟨out, rfl, inv⟩
    | cons h stack =>
      have : (h :: stack ++ out).length ≤ ops.length := (List.subperm_of_subset inv.nodup inv.sub).length_le
      simp at this
      omega
  | succ n ih =>
    intro stack out inv hlen
    cases stack with
    | nil => exact ⟨out, by simp [topsortLoop], inv⟩
    | cons h stack =>
      have := ih _ _ (inv.step hn hown) (by simp; omega)
      simpa [topsortLoop] using this

theorem sortInv_start {ops : List KeyOp} (hn : ops.Nodup) :
    SortInv ops (ops.filter (fun o => o.oldKey.isNone)).reverse [] := by
  refine ⟨?_, ?_, ?_, by simp, ?_, ?_⟩
  · rw [List.append_nil]; exact (List.reverse_perm _).nodup_iff.2 (hn.filter _)
  · intro o ho; simp at ho; exact ho.1
  · intro o ho hk; simp [ho, hk]
  · intro o ho k hk; simp [hk] at ho
  · intro pre o post e; simp at e

theorem SortInv.complete {ops out : List KeyOp} (inv : SortInv ops [] out) (hac : Acyclic ops) (hg : Grounded ops) :
    ∀ o ∈ ops, o ∈ out := by
  obtain ⟨rank, hr⟩ := hac
  have key : ∀ n, ∀ o ∈ ops, rank o.newKey ≤ n → o ∈ out := by
    intro n
    induction n with
    | zero =>
      intro o ho hn
      cases hk : o.oldKey with
      | none => simpa using inv.adds o ho hk
      | some k =>
        obtain ⟨new, hb⟩ := (oldKey_iff _ _).1 hk
        have := hr o ho _ _ hb
        have h3 : o.newKey = new := by simp [KeyOp.newKey, hb]
        rw [h3] at hn; omega
    | succ n ih =>
      intro o ho hn
      cases hk : o.oldKey with
      | none => simpa using inv.adds o ho hk
      | some k =>
        obtain ⟨new, hb⟩ := (oldKey_iff _ _).1 hk
        have h1 := hr o ho _ _ hb
        have h3 : o.newKey = new := by simp [KeyOp.newKey, hb]
        obtain ⟨p, hp, hpk⟩ := (introduced_iff _ _).1 (hg k ⟨o, ho, new, hb⟩)
        have hp' := ih p hp (by rw [hpk]; rw [h3] at hn; omega)
        simpa using inv.children p hp' o ho (by rw [hk, hpk])
  intro o ho
  exact key _ o ho (Nat.le_refl _)

/-! ## Choosing -/

theorem swapBytes_top (x : Nat) (h : x < 256) : swapBytes (x * 2 ^ 56) = x := by
  unfold swapBytes
  norm_num
  omega

theorem clamp_small (v d : Nat) (hd : d ≤ 8) : clamp v (64 - d) = (v % 2 ^ d) * 2 ^ (8 - d) := by
  unfold clamp
  have hx : (v % 2 ^ d) * 2 ^ (8 - d) < 256 := by
    have h1 : v % 2 ^ d < 2 ^ d := Nat.mod_lt _ (Nat.two_pow_pos _)
    have h2 : (256 : Nat) = 2 ^ d * 2 ^ (8 - d) := by rw [← Nat.pow_add]; norm_num [Nat.add_sub_cancel' hd]
    rw [h2]
    exact Nat.mul_lt_mul_of_pos_right h1 (Nat.two_pow_pos _)
  by_cases h0 : d = 0
  · subst h0; simp [Nat.mod_one, swapBytes]
  · rw [if_pos (by omega)]
    have : (v <<< (64 - d)) % 2 ^ 64 = ((v % 2 ^ d) * 2 ^ (8 - d)) * 2 ^ 56 := by
      rw [Nat.shiftLeft_eq]
      have e : (2 : Nat) ^ 64 = 2 ^ d * 2 ^ (64 - d) := by rw [← Nat.pow_add]; congr 1; omega
      rw [e, Nat.mul_mod_mul_right, Nat.mul_assoc, ← Nat.pow_add]
      congr 2; omega
    rw [this, swapBytes_top _ hx]

end Verif.Prekey
