import Verif.Group.Spec
import Verif.Group.OrderLemmas
import Mathlib.Data.Finset.Card
import Mathlib.Data.List.Infix

/-! # Helper lemmas: the exploration of `reverse_topsort` and its result as lists of operations -/

namespace Verif.Group

open Relation

variable {H : Op → Nat}

theorem Revs.weight_eq : ∀ rs : Revs, rs.weight = stackWeight (rs.toList.map Op.rev)
  | .nil => rfl
  | .cons r rs => by
    have ih := Revs.weight_eq rs
    simp only [Revs.weight, Revs.toList, List.map_cons, stackWeight, List.sum_cons, Op.weight] at ih ⊢
    omega

theorem Op.weight_eq (op : Op) : op.weight = 1 + stackWeight op.after := by
  cases op with
  | dlg d =>
    cases d with
    | root i s a c af ct =>
      simp [Op.weight, Dlg.weight, Op.after, Dlg.proof, Dlg.after, Revs.weight_eq]
    | link i s a c p af ct =>
      simp [Op.weight, Dlg.weight, Op.after, Dlg.proof, Dlg.after, Revs.weight_eq, stackWeight]
      omega
  | rev r =>
    cases r with
    | root i s d c => simp [Op.weight, Rev.weight, Op.after, Rev.proof, Rev.revoke, stackWeight]
    | via i s d p c => simp [Op.weight, Rev.weight, Op.after, Rev.proof, Rev.revoke, stackWeight]; omega

theorem stackWeight_append (a b : List Op) : stackWeight (a ++ b) = stackWeight a + stackWeight b := by
  simp [stackWeight]

theorem stackWeight_reverse (a : List Op) : stackWeight a.reverse = stackWeight a := by
  simp [stackWeight, List.sum_reverse]

theorem Below.dep {heads : List Op} {a b : Op} (h : Below heads a) (hd : Dep a b) : Below heads b := by
  obtain ⟨x, hx, hr⟩ := h
  exact ⟨x, hx, hr.tail hd⟩

theorem Below.trans {heads : List Op} {a b : Op} (h : Below heads a) (hd : ReflTransGen Dep a b) : Below heads b := by
  obtain ⟨x, hx, hr⟩ := h
  exact ⟨x, hx, hr.trans hd⟩

theorem Below.head {heads : List Op} {a : Op} (h : a ∈ heads) : Below heads a := ⟨a, h, .refl⟩

/-- Invariant of the exploration. -/
structure EInv (H : Op → Nat) (heads : List Op) (stack : List Op) (t : Table) : Prop where
  wf : AMap.WF t.ops
  key : ∀ {k op}, AMap.get t.ops k = some op → k = H op ∧ Below heads op
  stk : ∀ op ∈ stack, Below heads op
  closed : ∀ {k op}, AMap.get t.ops k = some op → ∀ p ∈ op.after, AMap.get t.ops (H p) = some p ∨ p ∈ stack
  start : ∀ op ∈ heads, AMap.get t.ops (H op) = some op ∨ op ∈ stack
  rev : ∀ {s k}, AMap.get t.revokedBy s = some k → ∃ r, AMap.get t.ops k = some (.rev r) ∧ r.revoke.sig = s
  revd : ∀ {k r}, AMap.get t.ops k = some (.rev r) → AMap.get t.revokedBy r.revoke.sig ≠ none

theorem explore_spec {heads : List Op} (hc : NoClash H heads) (n : Nat) {stack : List Op} {t : Table}
    (h : EInv H heads stack t) (hn : stackWeight stack < n) : EInv H heads [] (explore H n stack t) := by
  induction n generalizing stack t with
  | zero => omega
  | succ n ih =>
    cases stack with
    | nil => exact h
    | cons op stack =>
      have hop : Below heads op := h.stk op (by simp)
      have hw : stackWeight (op :: stack) = op.weight + stackWeight stack := by simp [stackWeight]
      have hw1 := Op.weight_eq op
      rw [explore]
      by_cases hcon : AMap.contains t.ops (H op) = true
      · rw [if_pos hcon]
        have hget : AMap.get t.ops (H op) = some op := by
          cases hg : AMap.get t.ops (H op) with
          | none => rw [AMap.contains, hg] at hcon; simp at hcon
          | some op' =>
            obtain ⟨h1, h2⟩ := h.key hg
            rw [hc op op' hop h2 h1]
        refine ih ⟨h.wf, h.key, fun o ho => h.stk o (List.mem_cons_of_mem _ ho), ?_, ?_, h.rev, h.revd⟩ (by omega)
        · intro k o hk p hp
          rcases h.closed hk p hp with h1 | h1
          · exact Or.inl h1
          · rcases List.mem_cons.1 h1 with rfl | h1
            · exact Or.inl hget
            · exact Or.inr h1
        · intro o ho
          rcases h.start o ho with h1 | h1
          · exact Or.inl h1
          · rcases List.mem_cons.1 h1 with rfl | h1
            · exact Or.inl hget
            · exact Or.inr h1
      · rw [if_neg hcon]
        have hnone : AMap.get t.ops (H op) = none := by
          cases hg : AMap.get t.ops (H op) with
          | none => rfl
          | some op' => rw [AMap.contains, hg] at hcon; simp at hcon
        have hself : AMap.get (t.record H op).ops (H op) = some op := AMap.get_insert_self _ _ _
        have hold : ∀ {k o}, AMap.get t.ops k = some o → AMap.get (t.record H op).ops k = some o := by
          intro k o hk
          show AMap.get (AMap.insert t.ops (H op) op) k = some o
          rw [AMap.get_insert_ne, hk]
          rintro rfl
          rw [hnone] at hk; cases hk
        refine ih ⟨AMap.wf_insert h.wf _ _, ?_, ?_, ?_, ?_, ?_, ?_⟩ ?_
        · intro k o hk
          have hk' : AMap.get (AMap.insert t.ops (H op) op) k = some o := hk
          rw [AMap.get_insert] at hk'
          split at hk'
          · rename_i he
            cases hk'
            exact ⟨he, hop⟩
          · exact h.key hk'
        · intro o ho
          rcases List.mem_append.1 ho with h1 | h1
          · exact hop.dep (List.mem_reverse.1 h1)
          · exact h.stk o (List.mem_cons_of_mem _ h1)
        · intro k o hk p hp
          have hk' : AMap.get (AMap.insert t.ops (H op) op) k = some o := hk
          rw [AMap.get_insert] at hk'
          split at hk'
          · cases hk'
            exact Or.inr (List.mem_append_left _ (List.mem_reverse.2 hp))
          · rcases h.closed hk' p hp with h1 | h1
            · exact Or.inl (hold h1)
            · rcases List.mem_cons.1 h1 with rfl | h1
              · exact Or.inl hself
              · exact Or.inr (List.mem_append_right _ h1)
        · intro o ho
          rcases h.start o ho with h1 | h1
          · exact Or.inl (hold h1)
          · rcases List.mem_cons.1 h1 with rfl | h1
            · exact Or.inl hself
            · exact Or.inr (List.mem_append_right _ h1)
        · intro s k hk
          cases op with
          | dlg d =>
            obtain ⟨r, h1, h2⟩ := h.rev hk
            exact ⟨r, hold h1, h2⟩
          | rev r =>
            have hk' : AMap.get (AMap.insert t.revokedBy r.revoke.sig (H (.rev r))) s = some k := hk
            rw [AMap.get_insert] at hk'
            split at hk'
            · rename_i he
              cases hk'
              exact ⟨r, hself, he.symm⟩
            · obtain ⟨r', h1, h2⟩ := h.rev hk'
              exact ⟨r', hold h1, h2⟩
        · intro k r hk
          have hk' : AMap.get (AMap.insert t.ops (H op) op) k = some (.rev r) := hk
          rw [AMap.get_insert] at hk'
          split at hk'
          · cases hk'
            show AMap.get (AMap.insert t.revokedBy r.revoke.sig _) _ ≠ none
            rw [AMap.get_insert_self]; simp
          · have := h.revd hk'
            cases op with
            | dlg d => exact this
            | rev r' =>
              show AMap.get (AMap.insert t.revokedBy r'.revoke.sig _) _ ≠ none
              rw [AMap.get_insert]
              split
              · simp
              · exact this
        · rw [stackWeight_append, stackWeight_reverse]
          omega

/-- What the exploration finds, in terms of the operations below the heads. -/
structure Found (H : Op → Nat) (heads : List Op) (t : Table) : Prop where
  wf : AMap.WF t.ops
  get : ∀ {k op}, AMap.get t.ops k = some op ↔ k = H op ∧ Below heads op
  rev : ∀ {s k}, AMap.get t.revokedBy s = some k → ∃ r, k = H (.rev r) ∧ Below heads (.rev r) ∧ r.revoke.sig = s
  revd : ∀ {r}, Below heads (.rev r) → AMap.get t.revokedBy r.revoke.sig ≠ none

theorem collect_found (H : Op → Nat) {ds : List Dlg} {rs : List Rev}
    (hc : NoClash H (ds.map Op.dlg ++ rs.map Op.rev)) :
    Found H (ds.map Op.dlg ++ rs.map Op.rev) (collect H ds rs) := by
  have h : EInv H (ds.map Op.dlg ++ rs.map Op.rev) [] (collect H ds rs) := by
    refine explore_spec hc _ ⟨AMap.wf_nil, ?_, ?_, ?_, ?_, ?_, ?_⟩ (Nat.lt_succ_self _)
    · intro k op hk; simp at hk
    · intro op ho; exact Below.head (List.mem_reverse.1 ho)
    · intro k op hk; simp at hk
    · intro op ho; exact Or.inr (List.mem_reverse.2 ho)
    · intro s k hk; simp at hk
    · intro k r hk; simp at hk
  have hall : ∀ op, Below (ds.map Op.dlg ++ rs.map Op.rev) op → AMap.get (collect H ds rs).ops (H op) = some op := by
    rintro op ⟨x, hx, hr⟩
    induction hr with
    | refl =>
      rcases h.start x hx with h1 | h1
      · exact h1
      · simp at h1
    | tail _ hd ih =>
      rcases h.closed ih _ hd with h1 | h1
      · exact h1
      · simp at h1
  refine ⟨h.wf, ?_, ?_, ?_⟩
  · intro k op
    refine ⟨h.key, ?_⟩
    rintro ⟨rfl, h2⟩
    exact hall op h2
  · intro s k hk
    obtain ⟨r, h1, h2⟩ := h.rev hk
    obtain ⟨h3, h4⟩ := h.key h1
    exact ⟨r, h3, h4, h2⟩
  · intro r hr
    exact h.revd (hall _ hr)

namespace Found

variable {heads : List Op} {t : Table}

theorem succ_dep (h : Found H heads t) {a b : Op} (ha : Below heads a) (hd : Dep a b) : H b ∈ t.succsOf H (H a) := by
  unfold Table.succsOf
  rw [h.get.2 ⟨rfl, ha⟩]
  unfold Table.succs
  refine List.mem_append_left _ (List.mem_filter.2 ⟨List.mem_map.2 ⟨b, hd, rfl⟩, ?_⟩)
  rw [AMap.contains, h.get.2 ⟨rfl, ha.dep hd⟩]
  rfl

/-- Every edge of the graph is a `Needs`. -/
theorem succ_needs (h : Found H heads t) {x y : Nat} (hxy : y ∈ t.succsOf H x) :
    ∃ a b, x = H a ∧ y = H b ∧ Below heads a ∧ Below heads b ∧ Needs heads a b := by
  unfold Table.succsOf at hxy
  cases hg : AMap.get t.ops x with
  | none => rw [hg] at hxy; simp at hxy
  | some a =>
    rw [hg] at hxy
    obtain ⟨rfl, ha⟩ := h.get.1 hg
    unfold Table.succs at hxy
    rcases List.mem_append.1 hxy with h1 | h1
    · obtain ⟨b, hb, rfl⟩ := List.mem_map.1 (List.mem_filter.1 h1).1
      exact ⟨a, b, rfl, rfl, ha, ha.dep hb, .dep ha hb⟩
    · cases a with
      | rev r => simp at h1
      | dlg d =>
        cases hp : d.proof with
        | none => simp [hp] at h1
        | some p =>
          cases hr : AMap.get t.revokedBy p.sig with
          | none => simp [hp, hr] at h1
          | some rd =>
            simp only [hp, hr] at h1
            split at h1
            · simp only [List.mem_cons, List.not_mem_nil, or_false] at h1
              obtain ⟨r, h2, h3, h4⟩ := h.rev hr
              exact ⟨.dlg d, .rev r, rfl, by rw [h1, h2], ha, h3, .revoked ha h3 hp h4⟩
            · simp at h1

/-- If a delegation's proof is revoked, the graph has an edge to one revocation of it. -/
theorem succ_revoked (h : Found H heads t) {d p : Dlg} {r : Rev} (hd : Below heads (.dlg d)) (hp : d.proof = some p)
    (hr : Below heads (.rev r)) (hs : r.revoke.sig = p.sig) :
    ∃ r', Below heads (.rev r') ∧ r'.revoke.sig = p.sig ∧ H (.rev r') ∈ t.succsOf H (H (.dlg d)) := by
  cases hg : AMap.get t.revokedBy p.sig with
  | none => exact absurd (hs ▸ hg) (h.revd hr)
  | some k =>
    obtain ⟨r', rfl, h2, h3⟩ := h.rev hg
    refine ⟨r', h2, h3, ?_⟩
    unfold Table.succsOf
    rw [h.get.2 ⟨rfl, hd⟩]
    unfold Table.succs
    refine List.mem_append_right _ ?_
    have hcon : AMap.contains t.ops (H (.rev r')) = true := by
      rw [AMap.contains, h.get.2 ⟨rfl, h2⟩]; rfl
    simp [hp, hg, hcon]

/-- An acyclic history gives the rank used by `order_spec`. -/
theorem rank (h : Found H heads t) (hc : NoClash H heads) (ha : Acyclic heads) :
    ∃ β : Nat → Nat, ∀ a b, b ∈ t.succsOf H a → β a < β b := by
  classical
  let E : Nat → Nat → Prop := fun a b => b ∈ t.succsOf H a
  have hE : ∀ {x y}, TransGen E x y → ∃ a b, x = H a ∧ y = H b ∧ Below heads a ∧ Below heads b ∧
      TransGen (Needs heads) a b := by
    intro x y hxy
    induction hxy with
    | single h1 =>
      obtain ⟨a, b, e1, e2, b1, b2, n⟩ := h.succ_needs h1
      exact ⟨a, b, e1, e2, b1, b2, .single n⟩
    | tail _ h1 ih =>
      obtain ⟨a, b, e1, e2, b1, b2, n⟩ := ih
      obtain ⟨b', c, e3, e4, b3, b4, n'⟩ := h.succ_needs h1
      have : b = b' := hc b b' b2 b3 (by rw [← e2, ← e3])
      subst this
      exact ⟨a, c, e1, e4, b1, b4, .tail n n'⟩
  have hirr : ∀ x, ¬ TransGen E x x := by
    intro x hx
    obtain ⟨a, b, e1, e2, b1, b2, n⟩ := hE hx
    have : a = b := hc a b b1 b2 (by rw [← e1, ← e2])
    subst this
    exact ha a n
  let anc : Nat → Finset Nat := fun b => (AMap.keys t.ops).toFinset.filter (fun c => TransGen E c b)
  refine ⟨fun b => (anc b).card, ?_⟩
  intro a b hab
  apply Finset.card_lt_card
  rw [Finset.ssubset_iff_of_subset]
  · refine ⟨a, ?_, ?_⟩
    · simp only [anc, Finset.mem_filter, List.mem_toFinset]
      exact ⟨Table.key_of_succsOf hab, .single hab⟩
    · simp only [anc, Finset.mem_filter, not_and]
      intro _
      exact hirr a
  · intro c hc'
    simp only [anc, Finset.mem_filter] at hc' ⊢
    exact ⟨hc'.1, hc'.2.tail hab⟩

end Found

/-! ## The replay order -/

theorem mem_filterMap_get {t : Table} (h : ∀ {k op}, AMap.get t.ops k = some op → k = H op) {l : List Nat} {op : Op} :
    op ∈ l.filterMap (AMap.get t.ops) ↔ H op ∈ l ∧ AMap.get t.ops (H op) = some op := by
  rw [List.mem_filterMap]
  constructor
  · rintro ⟨k, h1, h2⟩
    have := h h2
    subst this
    exact ⟨h1, h2⟩
  · rintro ⟨h1, h2⟩
    exact ⟨H op, h1, h2⟩

theorem nodup_filterMap_get {t : Table} (h : ∀ {k op}, AMap.get t.ops k = some op → k = H op) {l : List Nat}
    (hl : l.Nodup) : (l.filterMap (AMap.get t.ops)).Nodup := by
  induction l with
  | nil => simp
  | cons k l ih =>
    rw [List.nodup_cons] at hl
    rw [List.filterMap_cons]
    cases hg : AMap.get t.ops k with
    | none => exact ih hl.2
    | some op =>
      simp only
      rw [List.nodup_cons]
      refine ⟨?_, ih hl.2⟩
      intro hm
      have := (mem_filterMap_get h).1 hm
      rw [← h hg] at this
      exact hl.1 this.1

/-- `b` is replayed before `a`: it occurs in what precedes `a`. -/
def Earlier (l : List Op) (b a : Op) : Prop := ∃ l1 l2 l3, l = l1 ++ b :: l2 ++ a :: l3

variable {ds : List Dlg} {rs : List Rev}

theorem history_mem (hc : NoClash H (ds.map Op.dlg ++ rs.map Op.rev)) {op : Op} :
    op ∈ reverseTopsort H ds rs ↔ Below (ds.map Op.dlg ++ rs.map Op.rev) op ∧ H op ∈ order H (collect H ds rs) := by
  have hf := collect_found H hc
  unfold reverseTopsort
  simp only
  rw [mem_filterMap_get (fun hg => (hf.get.1 hg).1), hf.get]
  constructor
  · rintro ⟨h1, _, h2⟩; exact ⟨h2, h1⟩
  · rintro ⟨h1, h2⟩; exact ⟨h2, rfl, h1⟩

theorem history_nodup (hc : NoClash H (ds.map Op.dlg ++ rs.map Op.rev)) : (reverseTopsort H ds rs).Nodup := by
  have hf := collect_found H hc
  exact nodup_filterMap_get (fun hg => (hf.get.1 hg).1) (order_spec H hf.wf).1

/-- In the output of `reverse_topsort`, everything that must be popped before an operation precedes it. -/
theorem reverse_edge (hc : NoClash H (ds.map Op.dlg ++ rs.map Op.rev)) {a b : Op} {l r : List Op}
    (hl : reverseTopsort H ds rs = l ++ b :: r) (ha : Below (ds.map Op.dlg ++ rs.map Op.rev) a)
    (hab : H b ∈ (collect H ds rs).succsOf H (H a)) : a ∈ l := by
  have hf := collect_found H hc
  have ho := (order_spec H hf.wf).2.2.1
  unfold reverseTopsort at hl
  simp only at hl
  obtain ⟨k1, k2, e1, e2, e3⟩ := List.filterMap_eq_append_iff.1 hl
  obtain ⟨k3, x, k4, e4, e5, e6, e7⟩ := List.filterMap_eq_cons_iff.1 e3
  have hx : x = H b := (hf.get.1 e6).1
  subst hx
  have h1 : order H (collect H ds rs) = (k1 ++ k3) ++ H b :: k4 := by rw [e1, e4]; simp
  have h2 := ho (k1 ++ k3) (H b) k4 h1 (H a) hab
  have h3 : a ∈ (k1 ++ k3).filterMap (AMap.get (collect H ds rs).ops) :=
    (mem_filterMap_get (fun hg => (hf.get.1 hg).1)).2 ⟨h2, hf.get.2 ⟨rfl, ha⟩⟩
  rw [List.filterMap_append, e2] at h3
  have h4 : k3.filterMap (AMap.get (collect H ds rs).ops) = [] := by
    rw [List.filterMap_eq_nil_iff]; exact e5
  rw [h4, List.append_nil] at h3
  exact h3

end Verif.Group
