import Verif.Keyhive.Query
import Verif.Keyhive.GroupsLemmas
import Verif.Group.DownLemmas

/-! # Helper lemmas: the queries -/

namespace Verif.Keyhive

open Verif.Group Verif.Cgka Verif.BeeKem Relation

namespace Keyhive

variable {E : Env}

/-! ## The walk -/

section Walk
variable {next : Op → List Op}

theorem walk_keeps : ∀ {n : Nat} {stack : List Op} {ops : AMap Nat Op} {h : Nat} {o : Op}, AMap.get ops h = some o →
    AMap.get (walk E next n stack ops) h = some o
  | 0, _, _, _, _, hg => by simpa [walk] using hg
  | _ + 1, [], _, _, _, hg => by simpa [walk] using hg
  | n + 1, a :: stack, ops, h, o, hg => by
    rw [walk]
    split
    · exact walk_keeps hg
    · rename_i hc
      refine walk_keeps ?_
      rw [AMap.get_insert_ne _ _ ?_]
      · exact hg
      · rintro rfl
        rw [AMap.contains, hg] at hc
        simp at hc

theorem walk_from : ∀ {n : Nat} {stack : List Op} {ops : AMap Nat Op} {h : Nat} {o : Op},
    AMap.get (walk E next n stack ops) h = some o →
      AMap.get ops h = some o ∨ h = E.opDigest o ∧ ∃ s ∈ stack, ReflTransGen (fun a b => b ∈ next a) s o
  | 0, _, _, _, _, hg => by left; simpa [walk] using hg
  | _ + 1, [], _, _, _, hg => by left; simpa [walk] using hg
  | n + 1, a :: stack, ops, h, o, hg => by
    rw [walk] at hg
    split at hg
    · rcases walk_from hg with h1 | ⟨h1, s, hs, h2⟩
      · exact .inl h1
      · exact .inr ⟨h1, s, List.mem_cons_of_mem _ hs, h2⟩
    · rcases walk_from hg with h1 | ⟨h1, s, hs, h2⟩
      · rw [AMap.get_insert] at h1
        split at h1
        · rename_i e
          cases h1
          exact .inr ⟨e, _, List.mem_cons_self, .refl⟩
        · exact .inl h1
      · rcases List.mem_append.1 hs with hs | hs
        · exact .inr ⟨h1, a, List.mem_cons_self, .head (List.mem_reverse.1 hs) h2⟩
        · exact .inr ⟨h1, s, List.mem_cons_of_mem _ hs, h2⟩

/-- Turns still needed. -/
def pot (E : Env) (next : Op → List Op) (U : List Op) (stack : List Op) (ops : AMap Nat Op) : Nat :=
  stack.length + ((U.filter (fun o => !AMap.contains ops (E.opDigest o))).map (fun o => (next o).length)).sum

theorem pot_step {U : List Op} {ops : AMap Nat Op} {o : Op} (ho : o ∈ U) (hc : AMap.contains ops (E.opDigest o) = false) :
    ((U.filter (fun x => !AMap.contains (AMap.insert ops (E.opDigest o) o) (E.opDigest x))).map (fun x => (next x).length)).sum + (next o).length ≤
      ((U.filter (fun x => !AMap.contains ops (E.opDigest x))).map (fun x => (next x).length)).sum := by
  have hle : ∀ x, AMap.contains (AMap.insert ops (E.opDigest o) o) (E.opDigest x) = false → AMap.contains ops (E.opDigest x) = false := by
    intro x hx
    rw [AMap.contains, AMap.get_insert] at hx
    split at hx
    · cases hx
    · exact hx
  have mono : ∀ l : List Op,
      ((l.filter (fun x => !AMap.contains (AMap.insert ops (E.opDigest o) o) (E.opDigest x))).map (fun x => (next x).length)).sum ≤
      ((l.filter (fun x => !AMap.contains ops (E.opDigest x))).map (fun x => (next x).length)).sum := by
    intro l
    induction l with
    | nil => simp
    | cons a l ih =>
      rw [List.filter_cons, List.filter_cons]
      by_cases h1 : AMap.contains (AMap.insert ops (E.opDigest o) o) (E.opDigest a) = false
      · rw [if_pos (by simp [h1]), if_pos (by simp [hle a h1])]
        simp only [List.map_cons, List.sum_cons]
        omega
      · rw [if_neg (by simpa using h1)]
        split
        · simp only [List.map_cons, List.sum_cons]; omega
        · exact ih
  induction U with
  | nil => cases ho
  | cons a l ih =>
    rw [List.filter_cons, List.filter_cons]
    rcases List.mem_cons.1 ho with rfl | ho
    · rw [if_neg (by simp [AMap.contains]), if_pos (by simp [hc])]
      have := mono l
      simp only [List.map_cons, List.sum_cons]
      omega
    · have := ih ho
      by_cases h1 : AMap.contains (AMap.insert ops (E.opDigest o) o) (E.opDigest a) = false
      · rw [if_pos (by simp [h1]), if_pos (by simp [hle a h1])]
        simp only [List.map_cons, List.sum_cons]
        omega
      · rw [if_neg (by simpa using h1)]
        split
        · simp only [List.map_cons, List.sum_cons]; omega
        · exact this

/-- With enough turns everything is followed. -/
theorem walk_done {U : List Op} (hU : ∀ o ∈ U, ∀ b ∈ next o, b ∈ U) : ∀ {n : Nat} {stack : List Op} {ops : AMap Nat Op},
    (∀ o ∈ stack, o ∈ U) → pot E next U stack ops < n →
      (∀ o ∈ stack, AMap.contains (walk E next n stack ops) (E.opDigest o) = true) ∧
      ∀ h o, AMap.get (walk E next n stack ops) h = some o → AMap.get ops h = some o ∨
        ∀ b ∈ next o, AMap.contains (walk E next n stack ops) (E.opDigest b) = true
  | 0, _, _, _, hn => absurd hn (Nat.not_lt_zero _)
  | n + 1, [], ops, _, _ => ⟨fun o h => (by cases h), fun h o hg => (by left; simpa [walk] using hg)⟩
  | n + 1, a :: stack, ops, hs, hn => by
    rw [walk]
    by_cases hc : AMap.contains ops (E.opDigest a) = true
    · rw [if_pos hc]
      obtain ⟨h1, h2⟩ := walk_done (n := n) (stack := stack) (ops := ops) hU (fun o h => hs o (List.mem_cons_of_mem _ h)) (by
        simp only [pot, List.length_cons] at hn ⊢; omega)
      refine ⟨fun o ho => ?_, h2⟩
      rcases List.mem_cons.1 ho with rfl | ho
      · obtain ⟨v, hv⟩ := Option.isSome_iff_exists.1 hc
        rw [AMap.contains, walk_keeps hv]; rfl
      · exact h1 o ho
    · rw [if_neg hc]
      have hc' : AMap.contains ops (E.opDigest a) = false := by simpa using hc
      have ha := hs a List.mem_cons_self
      have hp := pot_step (next := next) ha hc'
      obtain ⟨h1, h2⟩ := walk_done (n := n) (stack := (next a).reverse ++ stack) (ops := AMap.insert ops (E.opDigest a) a) hU (by
          intro o ho
          rcases List.mem_append.1 ho with ho | ho
          · exact hU a ha o (List.mem_reverse.1 ho)
          · exact hs o (List.mem_cons_of_mem _ ho)) (by
        simp only [pot, List.length_append, List.length_reverse, List.length_cons] at hn ⊢; omega)
      refine ⟨fun o ho => ?_, fun h o hg => ?_⟩
      · rcases List.mem_cons.1 ho with rfl | ho
        · rw [AMap.contains, walk_keeps (AMap.get_insert_self _ _ _)]; rfl
        · exact h1 o (List.mem_append_right _ ho)
      · rcases h2 h o hg with h3 | h3
        · rw [AMap.get_insert] at h3
          split at h3
          · cases h3
            exact .inr (fun b hb => h1 b (List.mem_append_left _ (List.mem_reverse.2 hb)))
          · exact .inl h3
        · exact .inr h3

end Walk

/-! ## What a walk can meet -/

/-- A head of a group, or a stored revocation. -/
theorem mem_everyOp {k : Keyhive} {x : Op} : x ∈ k.everyOp ↔
    (∃ i g h, (i, g) ∈ k.world ∧ h ∈ g.headOps ∧ ReflTransGen Dep h x) ∨ ∃ r ∈ AMap.values k.revs, ReflTransGen Dep (.rev r) x := by
  unfold everyOp
  simp only [List.mem_flatMap, List.mem_append, List.mem_map, Op.mem_down_iff]
  constructor
  · rintro ⟨h, (⟨⟨i, g⟩, hw, hh⟩ | ⟨r, hr, rfl⟩), hx⟩
    · exact .inl ⟨i, g, h, hw, hh, hx⟩
    · exact .inr ⟨r, hr, hx⟩
  · rintro (⟨i, g, h, hw, hh, hx⟩ | ⟨r, hr, hx⟩)
    · exact ⟨h, .inl ⟨(i, g), hw, hh⟩, hx⟩
    · exact ⟨_, .inr ⟨r, hr, rfl⟩, hx⟩

theorem everyOp_dep {k : Keyhive} {a b : Op} (ha : a ∈ k.everyOp) (h : Dep a b) : b ∈ k.everyOp := by
  rw [mem_everyOp] at ha ⊢
  rcases ha with ⟨i, g, x, hw, hh, hx⟩ | ⟨r, hr, hx⟩
  · exact .inl ⟨i, g, x, hw, hh, hx.tail h⟩
  · exact .inr ⟨r, hr, hx.tail h⟩

theorem mem_edges {k : Keyhive} {follow : Bool} {a b : Op} : b ∈ k.edges follow a ↔ Dep a b ∨
    follow = true ∧ ∃ d g h, a = .dlg d ∧ d.delegate.kind = .group ∧ AMap.get k.groups d.delegate.id = some g ∧
      h ∈ AMap.values g.dlgHeads ∧ b = .dlg h := by
  cases a with
  | rev r =>
    simp only [edges, Dep, Op.after, List.mem_append, List.mem_cons, List.mem_nil_iff, or_false]
    constructor
    · rintro (h | h)
      · exact .inl (.inr h)
      · exact .inl (.inl h)
    · rintro ((h | h) | ⟨_, d, g, h, e, _⟩)
      · exact .inr h
      · exact .inl h
      · cases e
  | dlg d =>
    simp only [edges, Dep, Op.after, List.mem_append]
    constructor
    · rintro (h | h)
      · exact .inl h
      · split at h
        · rename_i hf
          simp only [Bool.and_eq_true, decide_eq_true_eq] at hf
          split at h
          · rename_i g hg
            obtain ⟨x, hx, rfl⟩ := List.mem_map.1 h
            exact .inr ⟨hf.1, d, g, x, rfl, hf.2, hg, hx, rfl⟩
          · cases h
        · cases h
    · rintro (h | ⟨hf, d', g, x, e, hk, hg, hx, rfl⟩)
      · exact .inl h
      · cases e
        right
        rw [if_pos (by simp [hf, hk]), hg]
        exact List.mem_map_of_mem hx

theorem mem_world_of_groups {k : Keyhive} {i : Id} {g : Group} (h : (i, g) ∈ k.groups) : (i, g) ∈ k.world := List.mem_append_left _ h

theorem everyOp_edges {k : Keyhive} {follow : Bool} : ∀ o ∈ k.everyOp, ∀ b ∈ k.edges follow o, b ∈ k.everyOp := by
  intro o ho b hb
  rcases mem_edges.1 hb with h | ⟨_, d, g, x, rfl, _, hg, hx, rfl⟩
  · exact everyOp_dep ho h
  · exact mem_everyOp.2 (.inl ⟨_, g, _, mem_world_of_groups (AMap.mem_of_get hg), List.mem_append_left _ (List.mem_map_of_mem hx), .refl⟩)

theorem collect_done {k : Keyhive} {follow : Bool} {start : List Op} {ops : AMap Nat Op} (hs : ∀ o ∈ start, o ∈ k.everyOp) :
    (∀ o ∈ start, AMap.contains (k.collect E follow start ops) (E.opDigest o) = true) ∧
      ∀ h o, AMap.get (k.collect E follow start ops) h = some o → AMap.get ops h = some o ∨
        ∀ b ∈ k.edges follow o, AMap.contains (k.collect E follow start ops) (E.opDigest b) = true := by
  refine walk_done everyOp_edges hs ?_
  have : ∀ l : List Op, ((l.filter (fun o => !AMap.contains ops (E.opDigest o))).map (fun o => (k.edges follow o).length)).sum ≤
      (l.map (fun o => (k.edges follow o).length)).sum := by
    intro l
    induction l with
    | nil => simp
    | cons a l ih =>
      rw [List.filter_cons]
      split
      · simp only [List.map_cons, List.sum_cons]; omega
      · simp only [List.map_cons, List.sum_cons]; omega
  have := this k.everyOp
  unfold pot turns
  omega

/-- Different operations known to the device have different digests. -/
def Apart (E : Env) (k : Keyhive) : Prop := ∀ a ∈ k.everyOp, ∀ b ∈ k.everyOp, E.opDigest a = E.opDigest b → a = b

/-- The operations found so far: known, under their digests, with everything they lead to. -/
structure Closed (E : Env) (k : Keyhive) (follow : Bool) (ops : AMap Nat Op) : Prop where
  key : ∀ {h o}, AMap.get ops h = some o → h = E.opDigest o ∧ o ∈ k.everyOp
  next : ∀ {h o}, AMap.get ops h = some o → ∀ b ∈ k.edges follow o, AMap.contains ops (E.opDigest b) = true

theorem Closed.nil {k : Keyhive} {follow : Bool} : Closed E k follow [] :=
  ⟨fun h => (by cases h), fun h => (by cases h)⟩

theorem Closed.weaken {k : Keyhive} {ops : AMap Nat Op} (h : Closed E k true ops) : Closed E k false ops :=
  ⟨h.key, fun hg b hb => h.next hg b (by
    rcases mem_edges.1 hb with h | ⟨h, _⟩
    · exact mem_edges.2 (.inl h)
    · cases h)⟩

theorem reach_every {k : Keyhive} {follow : Bool} {s o : Op} (hs : s ∈ k.everyOp)
    (h : ReflTransGen (fun a b => b ∈ k.edges follow a) s o) : o ∈ k.everyOp := by
  induction h with
  | refl => exact hs
  | tail _ hb ih => exact everyOp_edges _ ih _ hb

theorem collect_closed {k : Keyhive} {follow : Bool} {start : List Op} {ops : AMap Nat Op} (hs : ∀ o ∈ start, o ∈ k.everyOp)
    (hc : Closed E k follow ops) : Closed E k follow (k.collect E follow start ops) := by
  obtain ⟨h1, h2⟩ := collect_done (E := E) (follow := follow) (ops := ops) hs
  refine ⟨fun {h o} hg => ?_, fun {h o} hg b hb => ?_⟩
  · rcases walk_from hg with h3 | ⟨h3, s, hs', hr⟩
    · exact hc.key h3
    · exact ⟨h3, reach_every (hs s hs') hr⟩
  · rcases h2 h o hg with h3 | h3
    · obtain ⟨v, hv⟩ := Option.isSome_iff_exists.1 (hc.next h3 b hb)
      rw [AMap.contains, collect, walk_keeps hv]; rfl
    · exact h3 b hb

/-- The walk finds what it starts from and what that leads to, and nothing else. -/
theorem collect_iff {k : Keyhive} (ha : Apart E k) {follow : Bool} {start : List Op} {ops : AMap Nat Op} (hs : ∀ o ∈ start, o ∈ k.everyOp)
    (hc : Closed E k follow ops) {h : Nat} {o : Op} : AMap.get (k.collect E follow start ops) h = some o ↔
      AMap.get ops h = some o ∨ h = E.opDigest o ∧ ∃ s ∈ start, ReflTransGen (fun a b => b ∈ k.edges follow a) s o := by
  have hcl := collect_closed (start := start) hs hc
  constructor
  · exact walk_from
  · rintro (h1 | ⟨rfl, s, hs', hr⟩)
    · exact walk_keeps h1
    · have he := reach_every (hs s hs') hr
      have key : ∀ x, x ∈ k.everyOp → AMap.contains (k.collect E follow start ops) (E.opDigest x) = true →
          AMap.get (k.collect E follow start ops) (E.opDigest x) = some x := by
        intro x hx h
        obtain ⟨v, hv⟩ := Option.isSome_iff_exists.1 h
        obtain ⟨e, hv'⟩ := hcl.key hv
        rw [hv, ha x hx v hv' e]
      refine key o he ?_
      induction hr with
      | refl => exact (collect_done hs).1 s hs'
      | tail h1 hb ih => exact hcl.next (key _ (reach_every (hs s hs') h1) (ih (reach_every (hs s hs') h1))) _ hb

end Keyhive

end Verif.Keyhive
