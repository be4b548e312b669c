import Verif.Cgka.Sample
import Verif.Cgka.TrustSpec

/-! # The sample history as a history in which everybody runs the library -/

namespace Verif.Cgka.Sample

open Verif.BeeKem Verif.Cgka

theorem honest_one (sk : Sk) : ∀ p ∈ ([(⟨sk⟩, sk)] : ShareKeyMap), p.1 = shareKey p.2 := by
  intro p hp
  rw [List.mem_singleton.1 hp]
  rfl

theorem start_trusted : Trusted H start := .new ⟨0, [], rfl⟩ start_new

theorem alice0_trusted : Trusted H alice0 := .owner 1 _ start_trusted (honest_one 11)
theorem alice1_trusted : Trusted H alice1 := .call alice0_trusted trivial (sign_good 1)
theorem alice2_trusted : Trusted H alice2 := .call alice1_trusted trivial (sign_good 2)
theorem alice3_trusted : Trusted H alice3 := .call alice2_trusted trivial (sign_good 3)
theorem alice7_trusted : Trusted H alice7 := .call alice3_trusted trivial (sign_good 7)

theorem bob0_trusted : Trusted H bob0 := .owner 2 _ start_trusted (honest_one 22)
theorem bob1_trusted : Trusted H bob1 := .receive (d := alice7) (x := 1) bob0_trusted alice7_trusted (by decide +kernel)
theorem bob2_trusted : Trusted H bob2 := .receive (d := alice7) (x := 2) bob1_trusted alice7_trusted (by decide +kernel)
theorem bob3_trusted : Trusted H bob3 := .receive (d := alice7) (x := 3) bob2_trusted alice7_trusted (by decide +kernel)
theorem bob7_trusted : Trusted H bob7 := .receive (d := alice7) (x := 7) bob3_trusted alice7_trusted (by decide +kernel)
theorem bob6_trusted : Trusted H bob6 := .call bob3_trusted trivial (sign_good 6)
theorem bobMerged_trusted : Trusted H bobMerged :=
  .receive (d := alice7) (x := 7) bob6_trusted alice7_trusted (by decide +kernel)

theorem carol0_trusted : Trusted H (start.withNewOwner 3 [(⟨33⟩, 33)]) :=
  .owner 3 _ start_trusted (honest_one 33)
theorem carol7_trusted : Trusted H carol7 :=
  .receive (d := alice7) (x := 7) (.receive (d := alice7) (x := 3) (.receive (d := alice7) (x := 2)
    (.receive (d := alice7) (x := 1) carol0_trusted alice7_trusted (by decide +kernel)) alice7_trusted (by decide +kernel))
    alice7_trusted (by decide +kernel)) alice7_trusted (by decide +kernel)

/-- Each operation of the list (latest first) names the next. -/
def chained (c : Cgka) : List Nat → Bool
  | y :: x :: l => (match AMap.get c.graph.ops y with | some o => decide (x ∈ o.payload.preds) | none => false) && chained c (x :: l)
  | _ => true

theorem linear_of {c : Cgka} (l : List Nat) (hc : chained c l = true) (hk : ∀ x ∈ AMap.keys c.graph.ops, x ∈ l) : Linear c := by
  have step : ∀ (l : List Nat) (y : Nat), chained c (y :: l) = true → ∀ x ∈ l, Before c x y := by
    intro l
    induction l with
    | nil => simp
    | cons z l ih =>
      intro y h x hx
      simp only [chained, Bool.and_eq_true] at h
      have hn : Names c z y := by
        cases ho : AMap.get c.graph.ops y with
        | none => rw [ho] at h; simp at h
        | some o => rw [ho] at h; exact ⟨o, ho, by simpa using h.1⟩
      rcases List.mem_cons.1 hx with rfl | hx
      · exact .direct hn
      · exact .more (ih z h.2 x hx) hn
  have all : ∀ (l : List Nat), chained c l = true → ∀ x ∈ l, ∀ y ∈ l, x = y ∨ Before c x y ∨ Before c y x := by
    intro l
    induction l with
    | nil => simp
    | cons z l ih =>
      intro h x hx y hy
      have ht : chained c l = true := by
        cases l with
        | nil => rfl
        | cons w l => simp only [chained, Bool.and_eq_true] at h; exact h.2
      rcases List.mem_cons.1 hx with h1 | h1
      · rcases List.mem_cons.1 hy with h2 | h2
        · exact .inl (h1.trans h2.symm)
        · rw [h1]; exact .inr (.inr (step l _ h y h2))
      · rcases List.mem_cons.1 hy with h2 | h2
        · rw [h2]; exact .inr (.inl (step l _ h x h1))
        · exact ih ht x h1 y h2
  have mem : ∀ x, Knows c x → x ∈ l := by
    rintro x ⟨o, ho⟩
    exact hk x (by rw [AMap.mem_keys_iff, ho]; simp)
  intro x y hx hy
  exact all l hc x (mem x hx) y (mem y hy)

end Verif.Cgka.Sample
