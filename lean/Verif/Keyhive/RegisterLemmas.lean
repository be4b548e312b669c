import Verif.Keyhive.Register
import Verif.Keyhive.FadeLemmas
import Mathlib.Tactic.ByContra

/-! # What storing the past of a delegation changes -/

namespace Verif.Keyhive

open Verif.Group Verif.Cgka Verif.BeeKem

variable {E : Env}

/-- Only the stores of delegations and revocations differ, and nothing is missing from them. -/
structure Richer (k k' : Keyhive) : Prop where
  reg : k'.reg = k.reg
  unlisted : k'.unlisted = k.unlisted
  pairs : k'.pairs = k.pairs
  groups : k'.groups = k.groups
  docs : k'.docs = k.docs
  pending : k'.pending = k.pending
  dlgs : ∀ h, AMap.get k.dlgs h ≠ none → AMap.get k'.dlgs h ≠ none
  revs : ∀ h, AMap.get k.revs h ≠ none → AMap.get k'.revs h ≠ none

theorem Richer.rfl' (k : Keyhive) : Richer k k := ⟨rfl, rfl, rfl, rfl, rfl, rfl, fun _ h => h, fun _ h => h⟩

theorem Richer.trans {k k1 k2 : Keyhive} (h : Richer k k1) (h' : Richer k1 k2) : Richer k k2 :=
  ⟨h'.reg.trans h.reg, h'.unlisted.trans h.unlisted, h'.pairs.trans h.pairs, h'.groups.trans h.groups, h'.docs.trans h.docs,
    h'.pending.trans h.pending, fun x hx => h'.dlgs x (h.dlgs x hx), fun x hx => h'.revs x (h.revs x hx)⟩

theorem camap_kept {β : Type} (H : β → Nat) (m : CaMap Nat β) (v : β) (h : Nat) (hx : AMap.get m h ≠ none) :
    AMap.get (CaMap.insert H m v).1 h ≠ none := by
  simp only [CaMap.insert, AMap.get_insert]
  split
  · exact fun hc => by cases hc
  · exact hx

theorem richer_dlg (k : Keyhive) (d : Dlg) : Richer k (k.storeDlg E d) :=
  ⟨rfl, rfl, rfl, rfl, rfl, rfl, fun x hx => camap_kept _ _ _ x hx, fun _ h => h⟩

theorem richer_rev (k : Keyhive) (r : Rev) : Richer k (k.storeRev E r) :=
  ⟨rfl, rfl, rfl, rfl, rfl, rfl, fun _ h => h, fun x hx => camap_kept _ _ _ x hx⟩

theorem richer_foldl {β : Type} {f : Keyhive → β → Keyhive} (hf : ∀ k b, Richer k (f k b)) : ∀ (l : List β) (k : Keyhive), Richer k (l.foldl f k)
  | [], k => Richer.rfl' k
  | b :: l, k => (hf k b).trans (richer_foldl hf l (f k b))

theorem richer_link (k : Keyhive) (d : Dlg) : Richer k (k.storeLink E d) := (richer_dlg k d).trans (richer_foldl richer_rev _ _)

theorem richer_past : ∀ (n : Nat) (ds : List Dlg) (k : Keyhive), Richer k (Keyhive.storePast E n ds k)
  | 0, _, k => Richer.rfl' k
  | _ + 1, [], k => Richer.rfl' k
  | n + 1, d :: ds, k => by
    unfold Keyhive.storePast
    split
    · exact richer_past n ds k
    · exact ((richer_dlg k d).trans (richer_foldl richer_link _ _)).trans (richer_past n _ _)

/-- The delegation itself is stored. -/
theorem past_has (n : Nat) (d : Dlg) (ds : List Dlg) (k : Keyhive) : AMap.get (Keyhive.storePast E (n + 1) (d :: ds) k).dlgs (E.dlgDigest d) ≠ none := by
  unfold Keyhive.storePast
  split
  · rename_i h
    exact (richer_past n ds k).dlgs _ ((AMap.mem_keys_iff _ _).1 ((AMap.contains_iff _ _).1 h))
  · refine ((richer_foldl richer_link _ _).trans (richer_past n _ _)).dlgs _ ?_
    simp only [Keyhive.storeDlg, CaMap.insert, AMap.get_insert_self]
    exact fun h => by cases h

theorem foldl_has {β : Type} {f : Keyhive → β → Keyhive} (hf : ∀ k b, Richer k (f k b)) {h : Nat} : ∀ (l : List β) {b : β} (k : Keyhive), b ∈ l →
    (∀ k, AMap.get (f k b).dlgs h ≠ none) → AMap.get (l.foldl f k).dlgs h ≠ none
  | c :: l, b, k, hb, hh => by
    cases hb with
    | head => exact (richer_foldl hf l _).dlgs _ (hh k)
    | tail _ hb => exact foldl_has hf l _ hb hh

/-- And so is its lineage, if it was not stored before. -/
theorem past_lineage (n : Nat) {d x : Dlg} (ds : List Dlg) {k : Keyhive} (hn : AMap.get k.dlgs (E.dlgDigest d) = none) (hx : x ∈ d.lineage) :
    AMap.get (Keyhive.storePast E (n + 1) (d :: ds) k).dlgs (E.dlgDigest x) ≠ none := by
  unfold Keyhive.storePast
  rw [if_neg (fun h => absurd hn ((AMap.mem_keys_iff _ _).1 ((AMap.contains_iff _ _).1 h)))]
  refine (richer_past n _ _).dlgs _ (foldl_has richer_link _ _ hx (fun k => ?_))
  refine (richer_foldl richer_rev _ _).dlgs _ ?_
  simp only [Keyhive.storeDlg, CaMap.insert, AMap.get_insert_self]
  exact fun h => by cases h

/-! ## The bound on the rounds -/

/-- Weight of a list of delegations. -/
def weights (ds : List Dlg) : Nat := (ds.map Dlg.weight).sum

theorem weights_append (a b : List Dlg) : weights (a ++ b) = weights a + weights b := by simp [weights]

theorem weights_reverse (a : List Dlg) : weights a.reverse = weights a := by simp [weights, List.sum_reverse]

theorem proofs_weight : ∀ rs : Revs, weights (rs.toList.filterMap Rev.proof) ≤ rs.weight
  | .nil => Nat.le_refl 0
  | .cons r rs => by
    have ih := proofs_weight rs
    cases r with
    | root i s d c =>
      simp only [Revs.toList, List.filterMap_cons, Rev.proof, Revs.weight]
      omega
    | via i s d p c =>
      simp only [Revs.toList, List.filterMap_cons, Rev.proof, Revs.weight, Rev.weight]
      simp only [weights, List.map_cons, List.sum_cons] at ih ⊢
      omega

theorem owe_weight : ∀ d : Dlg, weights (d.after.filterMap Rev.proof) + weights (Keyhive.oweProofs d) < d.weight
  | .root i s a c rs x => by
    have := proofs_weight rs
    simp only [Keyhive.oweProofs, Dlg.lineage, Dlg.after, Dlg.weight, List.flatMap_nil]
    simp only [weights, List.map_nil, List.sum_nil] at this ⊢
    omega
  | .link i s a c p rs x => by
    have h1 := proofs_weight rs
    have h2 := owe_weight p
    have h3 : Keyhive.oweProofs (.link i s a c p rs x) = p.after.filterMap Rev.proof ++ Keyhive.oweProofs p := rfl
    rw [h3, weights_append]
    simp only [Dlg.after, Dlg.weight] at h1 h2 ⊢
    omega

theorem weight_pos (d : Dlg) : 0 < d.weight := by
  have := owe_weight d
  omega

theorem past_fuel : ∀ (n m : Nat) (ds : List Dlg) (k : Keyhive), weights ds ≤ n → weights ds ≤ m →
    Keyhive.storePast E n ds k = Keyhive.storePast E m ds k
  | 0, 0, _, _, _, _ => rfl
  | 0, m + 1, [], _, _, _ => rfl
  | n + 1, 0, [], _, _, _ => rfl
  | 0, m + 1, d :: ds, k, h, _ => by
    have := weight_pos d
    simp only [weights, List.map_cons, List.sum_cons] at h
    omega
  | n + 1, 0, d :: ds, k, _, h => by
    have := weight_pos d
    simp only [weights, List.map_cons, List.sum_cons] at h
    omega
  | n + 1, m + 1, [], _, _, _ => rfl
  | n + 1, m + 1, d :: ds, k, h1, h2 => by
    have h3 : weights (d :: ds) = d.weight + weights ds := by simp [weights]
    have h4 := owe_weight d
    rw [h3] at h1 h2
    unfold Keyhive.storePast
    split
    · exact past_fuel n m ds k (by omega) (by omega)
    · refine past_fuel n m _ _ ?_ ?_ <;>
      · rw [weights_append, weights_reverse]
        omega

end Verif.Keyhive
