import Verif.Cgka.ReplayProps

/-! # Helper lemmas: a replica that knows part of what another one knows -/

namespace Verif.Cgka

open Verif.BeeKem

variable {H : SOp → Nat}

/-- `c` knows only what `d` knows. -/
def Within (c d : Cgka) : Prop := ∀ x, Knows c x → Knows d x

theorem within_op (hH : Function.Injective H) {c d : Cgka} (gc : GInv H c.graph) (gd : GInv H d.graph) (hw : Within c d) {x : Nat} {o : SOp}
    (h : AMap.get c.graph.ops x = some o) : AMap.get d.graph.ops x = some o := by
  obtain ⟨o', h'⟩ := hw x ⟨o, h⟩
  rw [h', hH ((gc.hash _ _ h).trans (gd.hash _ _ h').symm)]

theorem within_op' (hH : Function.Injective H) {c d : Cgka} (gc : GInv H c.graph) (gd : GInv H d.graph) {x : Nat} (hx : Knows c x) {o : SOp}
    (h : AMap.get d.graph.ops x = some o) : AMap.get c.graph.ops x = some o := by
  obtain ⟨o', h'⟩ := hx
  rw [h', hH ((gc.hash _ _ h').trans (gd.hash _ _ h).symm)]

theorem names_known {c : Cgka} (gc : GInv H c.graph) {p x : Nat} (h : Names c p x) : Knows c p :=
  (knows_iff _ _).2 (gc.known_pred ((gc.predOf p x).2 h)).1

theorem within_names (hH : Function.Injective H) {c d : Cgka} (gc : GInv H c.graph) (gd : GInv H d.graph) (hw : Within c d) {p x : Nat}
    (h : Names c p x) : Names d p x := by
  obtain ⟨o, h1, h2⟩ := h
  exact ⟨o, within_op hH gc gd hw h1, h2⟩

theorem within_before (hH : Function.Injective H) {c d : Cgka} (gc : GInv H c.graph) (gd : GInv H d.graph) (hw : Within c d) {p x : Nat}
    (h : Before c p x) : Before d p x := by
  induction h with
  | direct h => exact .direct (within_names hH gc gd hw h)
  | more _ h ih => exact .more ih (within_names hH gc gd hw h)

/-- What is in the past of something known is known, and its past. -/
theorem before_within (hH : Function.Injective H) {c d : Cgka} (gc : GInv H c.graph) (gd : GInv H d.graph) {p x : Nat}
    (h : Before d p x) (hx : Knows c x) : Before c p x := by
  have names : ∀ {p x}, Names d p x → Knows c x → Names c p x := by
    rintro p x ⟨o, h1, h2⟩ hx
    exact ⟨o, within_op' hH gc gd hx h1, h2⟩
  induction h with
  | direct h => exact .direct (names h hx)
  | more _ h ih =>
    have hn := names h hx
    exact .more (ih (names_known gc hn)) hn

theorem before_known {c : Cgka} (gc : GInv H c.graph) {p x : Nat} (h : Before c p x) : Knows c p := by
  induction h with
  | direct h => exact names_known gc h
  | more _ _ ih => exact ih

theorem within_oneRoot (hH : Function.Injective H) {c d : Cgka} (gc : GInv H c.graph) (gd : GInv H d.graph) (hw : Within c d)
    (h1 : OneRoot d) : OneRoot c := by
  have names : ∀ {a}, Knows c a → (∀ p, ¬ Names c p a) → ∀ p, ¬ Names d p a := by
    rintro a ha hn p ⟨o, e1, e2⟩
    exact hn p ⟨o, within_op' hH gc gd ha e1, e2⟩
  exact fun a b ha hb na nb => h1 a b (hw a ha) (hw b hb) (names ha na) (names hb nb)

theorem within_removal (hH : Function.Injective H) {c d : Cgka} (gc : GInv H c.graph) (gd : GInv H d.graph) (hw : Within c d) {x : Nat}
    (h : Removal c x) : Removal d x := by
  obtain ⟨o, id, i, ks, ps, h1, h2⟩ := h
  exact ⟨o, id, i, ks, ps, within_op hH gc gd hw h1, h2⟩

theorem removal_known {c : Cgka} {x : Nat} (h : Removal c x) : Knows c x := by
  obtain ⟨o, id, i, ks, ps, h1, h2⟩ := h
  exact ⟨o, h1⟩

theorem within_serial (hH : Function.Injective H) {c d : Cgka} (gc : GInv H c.graph) (gd : GInv H d.graph) (hw : Within c d)
    (hs : NoConcurrentRemoval d) : NoConcurrentRemoval c := by
  intro x y hx hy
  rcases hs x y (within_removal hH gc gd hw hx) (hw y hy) with h | h | h
  · exact .inl h
  · exact .inr (.inl (before_within hH gc gd h hy))
  · exact .inr (.inr (before_within hH gc gd h (removal_known hx)))

/-- Taking in the next operation. -/
theorem hand_step (hH : Function.Injective H) {c d : Cgka} (hc : Trusted H c) (hd : Trusted H d) (hw : Within c d) (h1 : OneRoot d)
    (hs : NoConcurrentRemoval d) {op : SOp} (hop : AMap.get d.graph.ops (H op) = some op) (hp : ∀ p ∈ op.payload.preds, Knows c p) :
    ∃ b, (c.mergeConcurrentOperation H op).2 = .ok b ∧
      ∀ x, Knows (c.mergeConcurrentOperation H op).1 x ↔ Knows c x ∨ x = H op := by
  have gc := (reachOk_inv hH (trusted_ok hc)).graph
  have gd := (reachOk_inv hH (trusted_ok hd)).graph
  by_cases hk : Knows c (H op)
  · rw [Props.C11_known_changes_nothing H c op hk]
    exact ⟨false, rfl, fun x => ⟨.inl, fun h => h.elim id (fun e => e ▸ hk)⟩⟩
  · have hrem : ∀ x, Removal c x → Before d x (H op) := by
      intro x hx
      rcases hs x (H op) (within_removal hH gc gd hw hx) ⟨op, hop⟩ with h | h | h
      · exact absurd (h ▸ removal_known hx) hk
      · exact h
      · exact absurd (before_known gc (before_within hH gc gd h (removal_known hx))) hk
    have hm := (ReplayProps.C86_delivery_partial hH hc hd (within_oneRoot hH gc gd hw h1) (within_serial hH gc gd hw hs) hop hrem).2.1 hk hp
    refine ⟨true, hm, ?_⟩
    intro x
    have ha := (Props.C11_applied_once H c (c.mergeConcurrentOperation H op).1 op (c.mergeConcurrentOperation H op).2 rfl).1 x
    rw [hm] at ha
    rw [ha]
    simp

end Verif.Cgka
