import Verif.Prekey.Props
import Mathlib.Data.List.Rotate

/-! # C42 — the choice of a prekey and the iteration order of the prekeys

The active prekeys are a `HashSet` (individual.rs:59), which the standard library iterates in an order that differs between
two sets with the same elements. Two copies of an individual with the same prekeys in a different order are the same
individual to a user. -/

namespace Verif.Prekey.OrderProps

open Verif.Prekey.Sample (add)

/-- Two copies of an individual that hold the same operations and the same set of active prekeys. -/
structure SameIndividual (i j : Indie) : Prop where
  id : j.id = i.id
  state : j.state = i.state
  prekeys : j.prekeys.Perm i.prekeys

/-- C42 fails, determinism: whenever a prekey is chosen for a document, every other active prekey is chosen for the same
document by the same call on some copy of the same individual. So the choice is not a function of individual and
document. -/
theorem C42_order_fails (xof : Id → Id → Nat → Nat) (i : Indie) (doc : Id) (turns : Nat) (k : Key)
    (h : i.pickPrekey xof doc turns = .key k) (k' : Key) (hk' : k' ∈ i.prekeys) :
    ∃ j, SameIndividual i j ∧ j.pickPrekey xof doc turns = .key k' := by
  obtain ⟨n, hn, hget⟩ := List.getElem_of_mem hk'
  unfold Indie.pickPrekey at h
  split at h
  · cases h
  · rename_i idx hidx
    split at h
    · cases h
    · rename_i k0 hk0
      have hlt : idx < i.prekeys.length := by
        by_contra hge
        rw [List.getElem?_eq_none (by omega)] at hk0
        cases hk0
      refine ⟨{ i with prekeys := i.prekeys.rotate (n + (i.prekeys.length - idx)) }, ⟨rfl, rfl, List.rotate_perm _ _⟩, ?_⟩
      have hmod : (idx + (n + (i.prekeys.length - idx))) % i.prekeys.length = n := by
        have : idx + (n + (i.prekeys.length - idx)) = n + i.prekeys.length := by omega
        rw [this, Nat.add_mod_right, Nat.mod_eq_of_lt hn]
      have hg : (i.prekeys.rotate (n + (i.prekeys.length - idx)))[idx]? = some k' := by
        rw [List.getElem?_rotate hlt, hmod, List.getElem?_eq_getElem hn, hget]
      exact Props.picked_of_idx _ doc xof turns idx (by rw [List.length_rotate]; exact hidx) k' hg

/-- A newly generated agent with seven prekeys: the first key is chosen, and each of the others on some copy of the agent. -/
example : ∃ a : Active, Active.generate Sample.H Sample.valid id (Sample.sign 7) 7 1 [2, 3, 4, 5, 6, 7] = .ok a ∧
    a.indie.pickPrekey (fun _ _ n => n + 1) 3 9 = .key 7 ∧ 4 ∈ a.indie.prekeys := by
  refine ⟨(Active.generate Sample.H Sample.valid id (Sample.sign 7) 7 1 [2, 3, 4, 5, 6, 7]).toOption.getD
    ⟨Indie.new Sample.H (add 1), []⟩, ?_, ?_, ?_⟩ <;> decide +kernel

/-- C42, determinism, exactly when it holds: if some document is given a prekey, then all copies of the individual give it the
same prekey if and only if there is only one active prekey. -/
theorem C42_deterministic_iff (xof : Id → Id → Nat → Nat) (i : Indie) (hn : i.prekeys.Nodup) (doc : Id) (turns : Nat) (k : Key)
    (h : i.pickPrekey xof doc turns = .key k) :
    (∀ j, SameIndividual i j → j.pickPrekey xof doc turns = .key k) ↔ i.prekeys = [k] := by
  have hmem := Props.C42_picked_active_partial xof i doc turns k h
  constructor
  · intro hall
    have hk : ∀ k' ∈ i.prekeys, k' = k := by
      intro k' hk'
      obtain ⟨j, hj, hp⟩ := C42_order_fails xof i doc turns k h k' hk'
      have := hall j hj
      rw [hp] at this
      cases this
      rfl
    generalize i.prekeys = l at hn hmem hk
    cases l with
    | nil => simp at hmem
    | cons a t =>
      have ha := hk a (by simp)
      cases t with
      | nil => rw [ha]
      | cons b t =>
        have hb := hk b (by simp)
        rw [List.nodup_cons] at hn
        exact absurd (by rw [ha, hb]; simp) hn.1
  · intro hs j hj
    have hj' : j.prekeys = i.prekeys := by
      have hp := hj.prekeys
      rw [hs] at hp ⊢
      exact List.perm_singleton.1 hp
    have hid := hj.id
    unfold Indie.pickPrekey at h ⊢
    rw [hid, hj']
    exact h

example : (Indie.new Sample.H (add 1)).pickPrekey (fun _ _ n => n) 3 1 = .key 1 ∧ (Indie.new Sample.H (add 1)).prekeys = [1] := by
  decide +kernel

end Verif.Prekey.OrderProps
