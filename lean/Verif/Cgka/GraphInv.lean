import Verif.Cgka.RoundLemmas

/-! # Helper lemmas: the operation graph under insertion -/

namespace Verif.Cgka

open Verif.BeeKem

structure GInv (H : SOp → Nat) (g : Graph) : Prop where
  keys : ∀ h, AMap.get g.ops h ≠ none ↔ AMap.get g.preds h ≠ none
  hash : ∀ h o, AMap.get g.ops h = some o → H o = h
  pred : ∀ h o ps, AMap.get g.ops h = some o → AMap.get g.preds h = some ps → ∀ p, p ∈ ps ↔ p ∈ o.payload.preds
  closed : g.Closed
  acyclic : g.Acyclic
  headsN : g.heads.Nodup
  heads : ∀ x, x ∈ g.heads ↔ AMap.get g.ops x ≠ none ∧ ∀ y, ¬ g.Pred x y
  ne : g.heads ≠ []

theorem GInv.predOf {H : SOp → Nat} {g : Graph} (h : GInv H g) (p x : Nat) :
    g.Pred p x ↔ ∃ o, AMap.get g.ops x = some o ∧ p ∈ o.payload.preds := by
  constructor
  · rintro ⟨ps, h1, h2⟩
    cases ho : AMap.get g.ops x with
    | none => exact absurd ho ((h.keys x).2 (by rw [h1]; simp))
    | some o => exact ⟨o, rfl, (h.pred x o ps ho h1 p).1 h2⟩
  · rintro ⟨o, h1, h2⟩
    cases hp : AMap.get g.preds x with
    | none => exact absurd hp ((h.keys x).1 (by rw [h1]; simp))
    | some ps => exact ⟨ps, hp, (h.pred x o ps h1 hp p).2 h2⟩

/-- Inserting a fresh operation whose predecessors are known keeps the graph well formed. -/
theorem insert_inv {H : SOp → Nat} {g g' : Graph} {op : SOp} {ps : List Nat} (h : GInv H g)
    (hf : AMap.get g.ops (H op) = none) (hk : ∀ p ∈ op.payload.preds, AMap.get g.ops p ≠ none)
    (hops : g'.ops = AMap.insert g.ops (H op) op) (hpr : g'.preds = AMap.insert g.preds (H op) ps)
    (hps : ∀ p, p ∈ ps ↔ p ∈ op.payload.preds) (hhn : g'.heads.Nodup)
    (hh : ∀ x, x ∈ g'.heads ↔ x = H op ∨ (x ∈ g.heads ∧ x ∉ op.payload.preds)) : GInv H g' := by
  have hgo : ∀ x, AMap.get g'.ops x = if x = H op then some op else AMap.get g.ops x := by
    intro x; rw [hops, AMap.get_insert]
  have hgp : ∀ x, AMap.get g'.preds x = if x = H op then some ps else AMap.get g.preds x := by
    intro x; rw [hpr, AMap.get_insert]
  have hfp : AMap.get g.preds (H op) = none := by
    by_contra hc
    exact (h.keys _).2 hc hf
  have hnopred : ∀ y, ¬ g.Pred (H op) y := by
    rintro y ⟨qs, h1, h2⟩
    exact h.closed y qs h1 _ h2 hfp
  have hself : H op ∉ op.payload.preds := fun hc => hk _ hc hf
  have hPred : ∀ p x, g'.Pred p x ↔ (x = H op ∧ p ∈ op.payload.preds) ∨ g.Pred p x := by
    intro p x
    unfold Graph.Pred
    rw [hgp]
    by_cases hx : x = H op
    · subst hx
      simp only [if_true, Option.some.injEq, exists_eq_left', true_and, hps, hfp]
      simp
    · simp [hx]
  refine ⟨?_, ?_, ?_, ?_, ?_, hhn, ?_, ?_⟩
  · intro x
    rw [hgo, hgp]
    by_cases hx : x = H op
    · simp [hx]
    · simp only [hx, if_false]; exact h.keys x
  · intro x o hx
    rw [hgo] at hx
    by_cases hxo : x = H op
    · rw [if_pos hxo] at hx; cases hx; exact hxo.symm
    · rw [if_neg hxo] at hx; exact h.hash x o hx
  · intro x o qs hx hq p
    rw [hgo] at hx
    rw [hgp] at hq
    by_cases hxo : x = H op
    · rw [if_pos hxo] at hx hq; cases hx; cases hq; exact hps p
    · rw [if_neg hxo] at hx hq; exact h.pred x o qs hx hq p
  · intro x qs hq p hp
    rw [hgp] at hq ⊢
    by_cases hpo : p = H op
    · simp [hpo]
    · rw [if_neg hpo]
      by_cases hxo : x = H op
      · rw [if_pos hxo] at hq; cases hq
        rw [← h.keys]
        exact hk p ((hps p).1 hp)
      · rw [if_neg hxo] at hq
        exact h.closed x qs hq p hp
  · obtain ⟨rank, hr⟩ := h.acyclic
    obtain ⟨B, hB⟩ := le_of_mem_ranks (P := op.payload.preds) rank
    refine ⟨fun x => if x = H op then B + 1 else rank x, ?_⟩
    intro p x hpx
    rcases (hPred p x).1 hpx with ⟨rfl, hp⟩ | hp
    · have : p ≠ H op := fun hc => hself (hc ▸ hp)
      simp only [this, if_false, if_true]
      have := hB p hp
      omega
    · have h1 : p ≠ H op := fun hc => hnopred x (hc ▸ hp)
      have h2 : x ≠ H op := by
        rintro rfl
        obtain ⟨qs, hq, _⟩ := hp
        rw [hfp] at hq; simp at hq
      simp only [h1, h2, if_false]
      exact hr p x hp
  · intro x
    rw [hh, hgo]
    constructor
    · rintro (rfl | ⟨h1, h2⟩)
      · refine ⟨by simp, ?_⟩
        intro y hy
        rcases (hPred _ y).1 hy with ⟨_, hp⟩ | hp
        · exact hself hp
        · exact hnopred y hp
      · obtain ⟨h3, h4⟩ := (h.heads x).1 h1
        refine ⟨?_, ?_⟩
        · split
          · simp
          · exact h3
        · intro y hy
          rcases (hPred _ y).1 hy with ⟨_, hp⟩ | hp
          · exact h2 hp
          · exact h4 y hp
    · rintro ⟨h1, h2⟩
      by_cases hx : x = H op
      · exact Or.inl hx
      · right
        rw [if_neg hx] at h1
        refine ⟨(h.heads x).2 ⟨h1, fun y hy => h2 y ((hPred x y).2 (Or.inr hy))⟩, ?_⟩
        intro hc
        exact h2 (H op) ((hPred x _).2 (Or.inl ⟨rfl, hc⟩))
  · intro hc
    have := (hh (H op)).2 (Or.inl rfl)
    rw [hc] at this
    simp at this

theorem mem_foldl_sremove (l ps : List Nat) (x : Nat) : x ∈ ps.foldl sremove l ↔ x ∈ l ∧ x ∉ ps := by
  induction ps generalizing l with
  | nil => simp
  | cons p ps ih =>
    rw [List.foldl_cons, ih, mem_sremove]
    simp only [List.mem_cons, not_or]
    constructor
    · rintro ⟨⟨h1, h2⟩, h3⟩; exact ⟨h2, h1, h3⟩
    · rintro ⟨h1, h2, h3⟩; exact ⟨⟨h2, h1⟩, h3⟩

theorem nodup_foldl_sremove {l : List Nat} (h : l.Nodup) (ps : List Nat) : (ps.foldl sremove l).Nodup := by
  induction ps generalizing l with
  | nil => exact h
  | cons p ps ih => exact ih (nodup_sremove h p)

theorem GInv.addOp {H : SOp → Nat} {g : Graph} {op : SOp} (h : GInv H g)
    (hf : AMap.get g.ops (H op) = none) (hk : ∀ p ∈ op.payload.preds, AMap.get g.ops p ≠ none) :
    GInv H (g.addOp H op op.payload.preds) := by
  refine insert_inv (ps := sextend [] op.payload.preds) h hf hk rfl rfl ?_ ?_ ?_
  · intro p; simp [mem_sextend]
  · exact nodup_sinsert (nodup_foldl_sremove h.headsN _) _
  · intro x
    simp only [Graph.addOp, Graph.addOpAndUpdateHeads, mem_sinsert, mem_foldl_sremove]

theorem payload_preds_eq {op : SOp} {hs : List Nat} (h : ∃ p, op.payload = p ∧ p.preds = sextend [] hs) (x : Nat) :
    x ∈ op.payload.preds ↔ x ∈ hs := by
  obtain ⟨p, h1, h2⟩ := h
  rw [h1, h2]; simp [mem_sextend]

theorem GInv.localFresh {H : SOp → Nat} (hH : Function.Injective H) {g : Graph} {op : SOp} (h : GInv H g)
    (hp : ∀ x, x ∈ op.payload.preds ↔ x ∈ g.heads) : AMap.get g.ops (H op) = none := by
  by_contra hc
  cases ho : AMap.get g.ops (H op) with
  | none => exact hc ho
  | some o =>
    have he := hH (h.hash _ o ho)
    subst he
    obtain ⟨x, hx⟩ := List.exists_mem_of_ne_nil _ h.ne
    exact ((h.heads x).1 hx).2 (H o) ((h.predOf x _).2 ⟨o, ho, (hp x).2 hx⟩)

theorem GInv.addLocalOp {H : SOp → Nat} (hH : Function.Injective H) {g : Graph} {op : SOp} (h : GInv H g)
    (hp : ∀ x, x ∈ op.payload.preds ↔ x ∈ g.heads) : GInv H (g.addLocalOp H op) := by
  refine insert_inv (ps := sextend [] g.heads) h (h.localFresh hH hp) ?_ rfl rfl ?_ ?_ ?_
  · intro p hpp
    exact ((h.heads p).1 ((hp p).1 hpp)).1
  · intro p; rw [hp]; simp [mem_sextend]
  · simp [Graph.addLocalOp, Graph.addOpAndUpdateHeads]
  · intro x
    simp only [Graph.addLocalOp, Graph.addOpAndUpdateHeads, List.mem_singleton, hp]
    constructor
    · intro hx; exact Or.inl hx
    · rintro (hx | hx)
      · exact hx
      · exact absurd hx.1 hx.2

theorem GInv.new {H : SOp → Nat} {op : SOp} (hp : op.payload.preds = []) : GInv H (Graph.new.addLocalOp H op) := by
  have hop : (Graph.new.addLocalOp H op).ops = [(H op, op)] := rfl
  have hpr : (Graph.new.addLocalOp H op).preds = [(H op, [])] := rfl
  have hhd : (Graph.new.addLocalOp H op).heads = [H op] := rfl
  have hgo : ∀ x, AMap.get (Graph.new.addLocalOp H op).ops x = if x = H op then some op else none := by
    intro x; rw [hop, AMap.get_cons]; simp [eq_comm]
  have hgp : ∀ x, AMap.get (Graph.new.addLocalOp H op).preds x = if x = H op then some [] else none := by
    intro x; rw [hpr, AMap.get_cons]; simp [eq_comm]
  have hno : ∀ p x, ¬ (Graph.new.addLocalOp H op).Pred p x := by
    rintro p x ⟨ps, h1, h2⟩
    rw [hgp] at h1
    split at h1
    · cases h1; simp at h2
    · simp at h1
  refine ⟨?_, ?_, ?_, ?_, ⟨fun _ => 0, fun p x h => absurd h (hno p x)⟩, by rw [hhd]; simp, ?_, by rw [hhd]; simp⟩
  · intro x
    rw [hgo, hgp]
    by_cases hx : x = H op <;> simp [hx]
  · intro x o hx
    rw [hgo] at hx
    split at hx
    · rename_i h; cases hx; exact h.symm
    · simp at hx
  · intro x o ps hx hq p
    rw [hgo] at hx
    rw [hgp] at hq
    split at hx
    · rename_i h
      rw [if_pos h] at hq
      cases hx; cases hq
      rw [hp]
    · simp at hx
  · intro x ps hq p hpp
    exact absurd ⟨ps, hq, hpp⟩ (hno p x)
  · intro x
    rw [hhd, hgo]
    by_cases hx : x = H op
    · simp [hx, hno]
    · simp [hx]

end Verif.Cgka
