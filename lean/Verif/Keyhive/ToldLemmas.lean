import Verif.Keyhive.KeptLemmas
import Verif.Keyhive.QueryLemmas
import Verif.Cgka.Props

/-! # Helper lemmas: the group-key operations an agent is told -/

namespace Verif.Keyhive

open Verif.Group Verif.Cgka Verif.BeeKem

variable {E : Env}

theorem onward_fed {k k' : Keyhive} {did : Id} (h : Fed E k k') : Onward E did k k' := by
  induction h with
  | refl => exact .refl
  | step e _ ih => exact .call (.receive e) ih trivial (fun _ _ _ _ h => by cases h)

theorem doc_reach {k : Keyhive} (hk : Reach E k) {did : Id} {d : Doc} {c : Cgka} (hd : AMap.get k.docs did = some d) (hc : d.cgka = some c) :
    Cgka.Reach (E.hashCgka did) c := reach_trees hk did d hd c hc

theorem cgkaOps_of {d : Doc} {c : Cgka} (hc : d.cgka = some c) {es : List (List SOp)} (ht : c.graph.topsortGraph = .ok es) :
    Keyhive.cgkaOps d = some es.flatten := by
  unfold Keyhive.cgkaOps
  rw [hc]
  dsimp only
  rw [ht]

theorem topsort_keyed {k : Keyhive} (hk : Reach E k) {did : Id} (hH : Function.Injective (E.hashCgka did)) {d : Doc} {c : Cgka}
    (hd : AMap.get k.docs did = some d) (hc : d.cgka = some c) (h1 : OneRoot c) :
    ∃ es, c.graph.topsortGraph = .ok es ∧ Cgka.Props.ReplayOrder (E.hashCgka did) c c.graph.heads es := by
  have hr := doc_reach hk hd hc
  obtain ⟨hn, hne', hheads⟩ := Cgka.Props.C13_heads_exact hH hr
  exact Cgka.Props.C14_replay_order_partial hH hr h1 hne' hn (fun x hx => ((hheads x).1 hx).1)

theorem mem_cgkaOpsFor {k : Keyhive} {i did : Id} {op : SOp} (h : (did, op) ∈ k.cgkaOpsFor i) :
    ∃ x d, AMap.get (k.docsReachable i) did = some x ∧ AMap.get k.docs did = some d ∧ op ∈ (Keyhive.cgkaOps d).getD [] := by
  unfold Keyhive.cgkaOpsFor at h
  obtain ⟨j, hj, h⟩ := List.mem_flatMap.1 h
  split at h
  · cases h
  · rename_i d hd
    obtain ⟨o, ho, he⟩ := List.mem_map.1 h
    cases he
    cases hx : AMap.get (k.docsReachable i) did with
    | none => exact absurd hx ((AMap.mem_keys_iff _ _).1 hj)
    | some x => exact ⟨x, d, rfl, hd, ho⟩

theorem cgka_mem_events {k : Keyhive} {a : Agent} {did : Id} {op : SOp} (h : .cgka did op ∈ k.eventsFor E a) : (did, op) ∈ k.cgkaOpsFor a.id := by
  unfold Keyhive.eventsFor at h
  rcases List.mem_append.1 h with h | h
  · rcases List.mem_append.1 h with h | h
    · obtain ⟨o, _, ho⟩ := List.mem_map.1 h
      cases o <;> cases ho
    · obtain ⟨o, _, ho⟩ := List.mem_map.1 h
      cases ho
  · obtain ⟨o, h1, ho⟩ := List.mem_map.1 h
    cases ho
    exact h1

theorem pairwise_flatMap {α β : Type} {R : β → β → Prop} {f : α → List β} : ∀ {l : List α}, l.Nodup → (∀ a ∈ l, (f a).Pairwise R) →
    (∀ a b, a ≠ b → ∀ x ∈ f a, ∀ y ∈ f b, R x y) → (l.flatMap f).Pairwise R := by
  intro l
  induction l with
  | nil => intro _ _ _; simp
  | cons a l ih =>
    intro hn h1 h2
    rw [List.flatMap_cons, List.pairwise_append]
    refine ⟨h1 a (by simp), ih (List.nodup_cons.1 hn).2 (fun b hb => h1 b (List.mem_cons_of_mem _ hb)) h2, fun x hx y hy => ?_⟩
    obtain ⟨b, hb, hy⟩ := List.mem_flatMap.1 hy
    exact h2 a b (by rintro rfl; exact (List.nodup_cons.1 hn).1 hb) x hx y hy

end Verif.Keyhive
