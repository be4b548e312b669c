import Verif.Group.CollectLemmas

/-! # Helper lemmas: the replay order of a group -/

namespace Verif.Group

open Relation

variable {H : Op → Nat} {ds : List Dlg} {rs : List Rev}

theorem complete_of_acyclic (hc : NoClash H (ds.map Op.dlg ++ rs.map Op.rev))
    (ha : Acyclic (ds.map Op.dlg ++ rs.map Op.rev)) {op : Op} :
    op ∈ reverseTopsort H ds rs ↔ Below (ds.map Op.dlg ++ rs.map Op.rev) op := by
  have hf := collect_found H hc
  obtain ⟨β, hβ⟩ := hf.rank hc ha
  rw [history_mem hc]
  refine ⟨And.left, fun h => ⟨h, ?_⟩⟩
  apply (order_spec H hf.wf).2.2.2 β hβ
  rw [AMap.mem_keys_iff, hf.get.2 ⟨rfl, h⟩]
  simp

/-- If both are replayed, an edge of the graph puts its target first. -/
theorem edge_earlier (hc : NoClash H (ds.map Op.dlg ++ rs.map Op.rev)) {a b : Op} {l r : List Op}
    (hl : (reverseTopsort H ds rs).reverse = l ++ a :: r) (hb : b ∈ (reverseTopsort H ds rs).reverse)
    (hab : H b ∈ (collect H ds rs).succsOf H (H a)) : b ∈ l := by
  have hnd := history_nodup hc
  have ha : Below (ds.map Op.dlg ++ rs.map Op.rev) a :=
    ((history_mem hc).1 (List.mem_reverse.1 (by rw [hl]; simp))).1
  obtain ⟨s, t, hst⟩ := List.append_of_mem (List.mem_reverse.1 hb)
  have h1 := reverse_edge hc hst ha hab
  have h2 : (reverseTopsort H ds rs).reverse = t.reverse ++ b :: s.reverse := by rw [hst]; simp
  have hnd2 : ((reverseTopsort H ds rs).reverse).Nodup := List.nodup_reverse.2 hnd
  obtain ⟨u, v, huv⟩ := List.append_of_mem (List.mem_reverse.2 h1)
  rw [huv] at h2
  have h3 : l ++ a :: r = (t.reverse ++ b :: u) ++ a :: v := by rw [← hl, h2]; simp
  rw [hl] at hnd2
  have h4 : l = t.reverse ++ b :: u := by
    have e1 : a ∉ l := by
      intro hm
      rw [List.nodup_append] at hnd2
      exact hnd2.2.2 a hm a (by simp) rfl
    have e2 : a ∉ r := by
      rw [List.nodup_append, List.nodup_cons] at hnd2
      exact hnd2.2.1.1
    exact ((List.append_cons_inj_of_notMem e1 e2).1 h3).1
  rw [h4]; simp

/-- The replay order of a group whose history is acyclic. -/
theorem causal_of_acyclic (hc : NoClash H (ds.map Op.dlg ++ rs.map Op.rev))
    (ha : Acyclic (ds.map Op.dlg ++ rs.map Op.rev)) {a : Op} {l r : List Op}
    (hl : (reverseTopsort H ds rs).reverse = l ++ a :: r) {b : Op} (hb : b ∈ a.after) : b ∈ l := by
  have hba : Below (ds.map Op.dlg ++ rs.map Op.rev) a :=
    ((history_mem hc).1 (List.mem_reverse.1 (by rw [hl]; simp))).1
  exact edge_earlier hc hl (List.mem_reverse.2 ((complete_of_acyclic hc ha).2 (hba.dep hb)))
    ((collect_found H hc).succ_dep hba hb)

/-! ## A sufficient condition for an acyclic history -/

mutual
/-- Nesting depth, counting delegations double. -/
def Dlg.depth : Dlg → Nat
  | .root _ _ _ _ a _ => 2 + a.depth
  | .link _ _ _ _ p a _ => 2 + max p.depth a.depth
/-- See `Dlg.depth`. -/
def Rev.depth : Rev → Nat
  | .root _ _ d _ => 1 + d.depth
  | .via _ _ d _ _ => 1 + d.depth
/-- See `Dlg.depth`. -/
def Revs.depth : Revs → Nat
  | .nil => 0
  | .cons r rs => max r.depth rs.depth
end

/-- See `Dlg.depth`. -/
def Op.depth : Op → Nat
  | .dlg d => d.depth
  | .rev r => r.depth

theorem Revs.depth_mem : ∀ {rs : Revs} {r : Rev}, r ∈ rs.toList → r.depth ≤ rs.depth
  | .nil, r, h => by simp [Revs.toList] at h
  | .cons r' rs, r, h => by
    simp only [Revs.toList, List.mem_cons] at h
    simp only [Revs.depth]
    rcases h with rfl | h
    · omega
    · have := Revs.depth_mem h
      omega

theorem Dlg.depth_proof {d p : Dlg} (h : d.proof = some p) : p.depth + 2 ≤ d.depth := by
  cases d with
  | root => simp [Dlg.proof] at h
  | link i s a c p' af ct =>
    simp only [Dlg.proof, Option.some.injEq] at h
    subst h
    simp only [Dlg.depth]; omega

theorem Dlg.depth_after {d : Dlg} {r : Rev} (h : r ∈ d.after) : r.depth < d.depth := by
  cases d with
  | root i s a c af ct =>
    have := Revs.depth_mem h
    simp only [Dlg.depth]; omega
  | link i s a c p' af ct =>
    have := Revs.depth_mem h
    simp only [Dlg.depth]; omega

theorem Rev.depth_eq (r : Rev) : r.depth = 1 + r.revoke.depth := by cases r <;> rfl

theorem Dlg.lineage_proof {d p : Dlg} (h : d.proof = some p) : d.lineage = p :: p.lineage := by
  cases d with
  | root => simp [Dlg.proof] at h
  | link i s a c p' af ct =>
    simp only [Dlg.proof, Option.some.injEq] at h
    subst h
    rfl

theorem Dlg.lineage_root {d : Dlg} (h : d.proof = none) : d.lineage = [] := by
  cases d with
  | root => rfl
  | link => simp [Dlg.proof] at h

theorem Dlg.depth_lineage : ∀ {d a : Dlg}, a ∈ d.lineage → a.depth < d.depth
  | .root .., a, h => by simp [Dlg.lineage] at h
  | .link i s g c p af ct, a, h => by
    have hp := Dlg.depth_proof (d := .link i s g c p af ct) rfl
    simp only [Dlg.lineage, List.mem_cons] at h
    rcases h with rfl | h
    · omega
    · have := Dlg.depth_lineage h
      omega

theorem mem_after_dlg {d : Dlg} {b : Op} :
    b ∈ (Op.dlg d).after ↔ (∃ p, d.proof = some p ∧ b = .dlg p) ∨ ∃ r ∈ d.after, b = .rev r := by
  simp only [Op.after, List.mem_append, List.mem_map, Option.mem_toList]
  constructor
  · rintro (⟨p, h1, rfl⟩ | ⟨r, h1, rfl⟩)
    · exact Or.inl ⟨p, h1, rfl⟩
    · exact Or.inr ⟨r, h1, rfl⟩
  · rintro (⟨p, h1, rfl⟩ | ⟨r, h1, rfl⟩)
    · exact Or.inl ⟨p, h1, rfl⟩
    · exact Or.inr ⟨r, h1, rfl⟩

theorem mem_after_rev {r : Rev} {b : Op} :
    b ∈ (Op.rev r).after ↔ b = .dlg r.revoke ∨ ∃ p, r.proof = some p ∧ b = .dlg p := by
  simp only [Op.after, List.mem_cons, List.mem_map, Option.mem_toList]
  constructor
  · rintro (h | ⟨p, h1, rfl⟩)
    · exact Or.inl h
    · exact Or.inr ⟨p, h1, rfl⟩
  · rintro (h | ⟨p, h1, rfl⟩)
    · exact Or.inl h
    · exact Or.inr ⟨p, h1, rfl⟩

theorem acyclic_of_direct {heads : List Op} (hs : NoClash Op.sig heads) (hd : Direct heads) : Acyclic heads := by
  have h1 : ∀ {a b}, Needs heads a b → b.depth < a.depth := by
    intro a b h
    cases h with
    | dep ha hab =>
      cases a with
      | dlg d =>
        rcases mem_after_dlg.1 hab with ⟨p, h1, rfl⟩ | ⟨r, h1, rfl⟩
        · have := Dlg.depth_proof h1
          show p.depth < d.depth
          omega
        · exact Dlg.depth_after h1
      | rev r =>
        have hr := Rev.depth_eq r
        rcases mem_after_rev.1 hab with rfl | ⟨p, h1, rfl⟩
        · show r.revoke.depth < r.depth
          omega
        · show p.depth < r.depth
          rcases hd r ha p h1 with rfl | h2
          · omega
          · have := Dlg.depth_lineage h2
            omega
    | revoked hd1 hr hp hsig =>
      rename_i d p r
      have hb : Below heads (.dlg r.revoke) := hr.dep (mem_after_rev.2 (Or.inl rfl))
      have hb2 : Below heads (.dlg p) := hd1.dep (mem_after_dlg.2 (Or.inl ⟨p, hp, rfl⟩))
      have he := hs (.dlg r.revoke) (.dlg p) hb hb2 hsig
      have he' : r.revoke = p := by injection he
      have h3 := Dlg.depth_proof hp
      have h4 := Rev.depth_eq r
      rw [he'] at h4
      show r.depth < d.depth
      omega
  have h2 : ∀ {a b}, TransGen (Needs heads) a b → b.depth < a.depth := by
    intro a b h
    induction h with
    | single h => exact h1 h
    | tail _ h ih => exact Nat.lt_trans (h1 h) ih
  intro o ho
  exact Nat.lt_irrefl _ (h2 ho)

end Verif.Group
