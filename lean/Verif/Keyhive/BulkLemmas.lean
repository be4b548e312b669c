import Verif.Keyhive.QueryLemmas
import Verif.Group.TopsortLemmas
import Verif.Group.TransLemmas
import Verif.Keyhive.Spec

/-! # Helper lemmas: reachable groups, and the bulk queries -/

namespace Verif.Keyhive

open Verif.Group Verif.Cgka Verif.BeeKem Relation

namespace Keyhive

variable {E : Env}

/-! ## Folds -/

theorem note_other {α : Type} (m : AMap Id α) {i j : Id} (v : Option α) (h : j ≠ i) : AMap.get (note m i v) j = AMap.get m j := by
  cases v with
  | none => rfl
  | some v => exact AMap.get_insert_ne _ _ h

theorem notes_spec {α β : Type} (key : β → Id) (f : β → Option α) : ∀ (l : List β) (m : AMap Id α), (l.map key).Nodup →
    (∀ x ∈ l, AMap.get m (key x) = none) → ∀ j v, AMap.get (l.foldl (fun m x => note m (key x) (f x)) m) j = some v ↔
      AMap.get m j = some v ∨ ∃ x ∈ l, key x = j ∧ f x = some v
  | [], m, _, _, j, v => by simp
  | x :: l, m, hn, hm, j, v => by
    rw [List.map_cons, List.nodup_cons] at hn
    have hx := hm x List.mem_cons_self
    rw [List.foldl_cons, notes_spec key f l _ hn.2 (fun y hy => by
      rw [note_other]
      · exact hm y (List.mem_cons_of_mem _ hy)
      · intro e; exact hn.1 (e ▸ List.mem_map_of_mem hy))]
    by_cases hj : j = key x
    · subst hj
      have h2 : ¬ ∃ y ∈ l, key y = key x ∧ f y = some v := by
        rintro ⟨y, hy, e, _⟩
        exact hn.1 (e ▸ List.mem_map_of_mem hy)
      simp only [h2, or_false, hx, List.mem_cons, exists_eq_or_imp, true_and, reduceCtorEq, false_or]
      cases hf : f x with
      | none => simp [note, hx]
      | some w => simp [note]
    · rw [note_other _ _ hj]
      simp [Ne.symm hj]

theorem mem_point (agents : List Id) (source : Id) : ∀ (m : AMap Id (List Id)) (i s : Id),
    s ∈ (AMap.get (Bulk.point m agents source) i).getD [] ↔ s ∈ (AMap.get m i).getD [] ∨ i ∈ agents ∧ s = source := by
  unfold Bulk.point
  induction agents with
  | nil => simp
  | cons a l ih =>
    intro m i s
    rw [List.foldl_cons, ih, Topsort.get_addTo]
    by_cases h : i = a
    · subst h
      simp only [if_true, Option.getD_some, mem_sinsert, List.mem_cons, true_or, true_and]
      constructor
      · rintro ((h | h) | h)
        · exact .inr h
        · exact .inl h
        · exact .inr h.2
      · rintro (h | h)
        · exact .inl (.inr h)
        · exact .inl (.inl h)
    · simp [h]

theorem point_none (agents : List Id) (source : Id) : ∀ (m : AMap Id (List Id)) (i : Id),
    AMap.get (Bulk.point m agents source) i = none ↔ AMap.get m i = none ∧ i ∉ agents := by
  unfold Bulk.point
  induction agents with
  | nil => simp
  | cons a l ih =>
    intro m i
    rw [List.foldl_cons, ih, Topsort.get_addTo]
    by_cases h : i = a
    · simp [h]
    · simp [h]

/-! ## Groups and documents of a device -/

theorem wf_parts {k : Keyhive} (hw : AMap.WF k.world) : AMap.WF k.groups ∧ AMap.WF k.docs := by
  unfold AMap.WF AMap.keys world at hw
  rw [List.map_append, List.nodup_append] at hw
  refine ⟨hw.1, ?_⟩
  have := hw.2.1
  rw [List.map_map] at this
  exact this

theorem mem_allGroups {k : Keyhive} (hk : Kept E k) (hw : AMap.WF k.world) {g : Group} :
    g ∈ k.allGroups ↔ AMap.get k.world g.id = some g := by
  have hm : g ∈ k.allGroups ↔ ∃ i, (i, g) ∈ k.world := by
    unfold allGroups world AMap.values
    simp only [List.mem_append, List.mem_map, Prod.exists, Prod.mk.injEq]
    constructor
    · rintro (⟨a, b, h, rfl⟩ | ⟨a, ⟨a', b, h, rfl⟩, rfl⟩)
      · exact ⟨a, .inl h⟩
      · exact ⟨a', .inr ⟨a', b, h, rfl, rfl⟩⟩
    · rintro ⟨i, h | ⟨a, b, h, rfl, rfl⟩⟩
      · exact .inl ⟨i, g, h, rfl⟩
      · exact .inr ⟨b, ⟨a, b, h, rfl⟩, rfl⟩
  rw [hm]
  constructor
  · rintro ⟨i, h⟩
    have := AMap.get_of_mem hw h
    rw [(hk.good this).1]
    exact this
  · intro h
    exact ⟨_, AMap.mem_of_get h⟩

theorem allGroups_ids {k : Keyhive} (hk : Kept E k) (hw : AMap.WF k.world) : (k.allGroups.map Group.id).Nodup := by
  have h1 : k.allGroups.map Group.id = AMap.keys k.world := by
    have h2 : k.allGroups = AMap.values k.world := by
      unfold allGroups world AMap.values
      rw [List.map_append, List.map_map, List.map_map]
      rfl
    rw [h2]
    unfold AMap.values AMap.keys
    rw [List.map_map]
    apply List.map_congr_left
    rintro ⟨i, g⟩ h
    exact (hk.good (AMap.get_of_mem hw h)).1
  rw [h1]
  exact hw

theorem docs_ids {k : Keyhive} (hk : Kept E k) (hw : AMap.WF k.world) : ((AMap.values k.docs).map (fun d => d.group.id)).Nodup := by
  have h1 : (AMap.values k.docs).map (fun d => d.group.id) = AMap.keys k.docs := by
    unfold AMap.values AMap.keys
    rw [List.map_map]
    apply List.map_congr_left
    rintro ⟨i, d⟩ h
    exact (hk.docs (AMap.get_of_mem (wf_parts hw).2 h)).1
  rw [h1]
  exact (wf_parts hw).2

theorem mem_docs {k : Keyhive} (hk : Kept E k) (hw : AMap.WF k.world) {d : Doc} :
    d ∈ AMap.values k.docs ↔ AMap.get k.docs d.group.id = some d := by
  constructor
  · intro h
    obtain ⟨⟨i, d'⟩, hm, rfl⟩ := List.mem_map.1 h
    have := AMap.get_of_mem (wf_parts hw).2 hm
    rw [(hk.docs this).1]
    exact this
  · intro h
    exact List.mem_map.2 ⟨_, AMap.mem_of_get h, rfl⟩

theorem docsReachable_iff {k : Keyhive} (hk : Kept E k) (hw : AMap.WF k.world) {i did : Id} {x : Access} :
    AMap.get (k.docsReachable i) did = some x ↔
      ∃ doc a, AMap.get k.docs did = some doc ∧ AMap.get (k.listed doc.group) i = some (a, x) := by
  unfold docsReachable
  rw [notes_spec (fun d : Doc => d.group.id) (fun d => (AMap.get (k.listed d.group) i).map (fun p => p.2)) _ [] (docs_ids hk hw) (fun _ _ => rfl)]
  simp only [AMap.get_nil, reduceCtorEq, false_or, Option.map_eq_some_iff, Prod.exists]
  constructor
  · rintro ⟨d, hd, rfl, a, y, h, rfl⟩
    exact ⟨d, a, (mem_docs hk hw).1 hd, h⟩
  · rintro ⟨d, a, hd, h⟩
    refine ⟨d, ?_, (hk.docs hd).1, a, x, h, rfl⟩
    rw [mem_docs hk hw, (hk.docs hd).1]
    exact hd

theorem memberedReachable_iff {k : Keyhive} (hk : Kept E k) (hw : AMap.WF k.world) {i gid : Id} {g : Group} {x : Access} :
    AMap.get (k.memberedReachable i) gid = some (g, x) ↔
      AMap.get k.world gid = some g ∧ ∃ a, AMap.get (k.listed g) i = some (a, x) := by
  unfold memberedReachable
  rw [notes_spec Group.id (fun g => (AMap.get (k.listed g) i).map (fun p => (g, p.2))) _ [] (allGroups_ids hk hw) (fun _ _ => rfl)]
  simp only [AMap.get_nil, reduceCtorEq, false_or, Option.map_eq_some_iff, Prod.exists, Prod.mk.injEq]
  constructor
  · rintro ⟨g, hg, rfl, a, y, h, rfl, rfl⟩
    exact ⟨(mem_allGroups hk hw).1 hg, a, h⟩
  · rintro ⟨hg, a, h⟩
    refine ⟨g, ?_, (hk.good hg).1, a, x, h, rfl, rfl⟩
    rw [mem_allGroups hk hw, (hk.good hg).1]
    exact hg

theorem wf_notes {α β : Type} (key : β → Id) (f : β → Option α) : ∀ (l : List β) (m : AMap Id α), AMap.WF m →
    AMap.WF (l.foldl (fun m x => note m (key x) (f x)) m)
  | [], _, h => h
  | x :: l, m, h => by
    rw [List.foldl_cons]
    refine wf_notes key f l _ ?_
    cases f x with
    | none => exact h
    | some v => exact AMap.wf_insert h _ _

theorem listed_spec {k : Keyhive} {g : Group} (hS : Sound k.world g) {i : Id} :
    (∀ a x, AMap.get (k.listed g) i = some (a, x) → a.id = i ∧ Within k.world g i) ∧
      (i ≠ g.id → Within k.world g i → ∃ a x, AMap.get (k.listed g) i = some (a, x)) := by
  obtain ⟨caps, h⟩ := transitive_ok k.world g
  have he : k.listed g = caps := by unfold listed; rw [h]
  obtain ⟨h1, h2⟩ := transitive_spec hS h
  rw [he]
  refine ⟨fun a x hc => ?_, fun hne ⟨a, links, hp, e⟩ => ?_⟩
  · obtain ⟨e, links, hp, _⟩ := h1 i a x hc
    exact ⟨e, a, links, hp, e⟩
  · subst e
    cases hc : AMap.get caps a.id with
    | none => exact absurd hc (h2 a links hp hne)
    | some p => exact ⟨p.1, p.2, rfl⟩

/-! ## Membership operations of one agent -/

/-- What the single query starts from. -/
def starts (k : Keyhive) (a : Agent) : List Op :=
  ((AMap.values (k.memberedReachable a.id)).flatMap (fun p => p.1.headOps) ++ (k.revsAbout a).map Op.rev).reverse

theorem mem_starts {k : Keyhive} (hk : Kept E k) (hw : AMap.WF k.world) {a : Agent} {o : Op} : o ∈ k.starts a ↔
    (∃ g ∈ k.allGroups, AMap.contains (k.listed g) a.id = true ∧ o ∈ g.headOps) ∨
      ∃ r ∈ AMap.values k.revs, r.revoke.delegate.sameAgentId a = true ∧ o = .rev r := by
  have hwf : AMap.WF (k.memberedReachable a.id) := wf_notes _ _ _ _ AMap.wf_nil
  unfold starts revsAbout
  simp only [List.mem_reverse, List.mem_append, List.mem_flatMap, List.mem_map, List.mem_filter]
  have h1 : (∃ p ∈ AMap.values (k.memberedReachable a.id), o ∈ p.1.headOps) ↔
      ∃ g ∈ k.allGroups, AMap.contains (k.listed g) a.id = true ∧ o ∈ g.headOps := by
    constructor
    · rintro ⟨⟨g, x⟩, hp, ho⟩
      obtain ⟨⟨gid, g', x'⟩, hm, e⟩ := List.mem_map.1 hp
      cases e
      obtain ⟨h1, b, h2⟩ := (memberedReachable_iff hk hw).1 (AMap.get_of_mem hwf hm)
      have e := (hk.good h1).1
      refine ⟨g, (mem_allGroups hk hw).2 (by rw [e]; exact h1), by rw [AMap.contains, h2]; rfl, ho⟩
    · rintro ⟨g, hg, hc, ho⟩
      obtain ⟨⟨b, x⟩, hb⟩ := Option.isSome_iff_exists.1 hc
      exact ⟨(g, x), List.mem_map.2 ⟨_, AMap.mem_of_get ((memberedReachable_iff hk hw).2 ⟨(mem_allGroups hk hw).1 hg, b, hb⟩), rfl⟩, ho⟩
  rw [h1]
  constructor
  · rintro (h | ⟨r, ⟨e1, e2⟩, rfl⟩)
    · exact .inl h
    · exact .inr ⟨r, e1, e2, rfl⟩
  · rintro (h | ⟨r, e1, e2, rfl⟩)
    · exact .inl h
    · exact .inr ⟨r, ⟨e1, e2⟩, rfl⟩

theorem heads_every {k : Keyhive} {g : Group} (hg : g ∈ k.allGroups) {o : Op} (ho : o ∈ g.headOps) : o ∈ k.everyOp := by
  unfold allGroups AMap.values at hg
  simp only [List.mem_append, List.mem_map, Prod.exists] at hg
  refine mem_everyOp.2 (.inl ?_)
  rcases hg with ⟨i, g', h, rfl⟩ | ⟨d, ⟨i, d', h, rfl⟩, rfl⟩
  · exact ⟨i, _, o, List.mem_append_left _ h, ho, .refl⟩
  · exact ⟨i, _, o, List.mem_append_right _ (List.mem_map.2 ⟨(i, d'), h, rfl⟩), ho, .refl⟩

theorem rev_every {k : Keyhive} {r : Rev} (hr : r ∈ AMap.values k.revs) : Op.rev r ∈ k.everyOp :=
  mem_everyOp.2 (.inr ⟨r, hr, .refl⟩)

theorem starts_every {k : Keyhive} (hk : Kept E k) (hw : AMap.WF k.world) {a : Agent} : ∀ o ∈ k.starts a, o ∈ k.everyOp := by
  intro o ho
  rcases (mem_starts hk hw).1 ho with ⟨g, hg, _, h⟩ | ⟨r, hr, _, rfl⟩
  · exact heads_every hg h
  · exact rev_every hr

theorem single_closed {k : Keyhive} (hk : Kept E k) (hw : AMap.WF k.world) (a : Agent) : Closed E k true (k.membershipOpsFor E a) :=
  collect_closed (starts_every hk hw) .nil

theorem single_iff {k : Keyhive} (hk : Kept E k) (hw : AMap.WF k.world) (ha : Apart E k) {a : Agent} {h : Nat} {o : Op} :
    AMap.get (k.membershipOpsFor E a) h = some o ↔
      h = E.opDigest o ∧ ∃ s ∈ k.starts a, ReflTransGen (fun a b => b ∈ k.edges true a) s o := by
  have := collect_iff (E := E) (start := k.starts a) (h := h) (o := o) (follow := true) ha (starts_every hk hw) .nil
  simp only [AMap.get_nil, reduceCtorEq, false_or] at this
  exact this

/-! ## Membership operations in bulk -/

/-- The bulk result after the groups `done`. -/
structure BulkInv (E : Env) (k : Keyhive) (done : List Group) (b : Bulk (AMap Nat Op)) : Prop where
  ops : ∀ s, AMap.get b.ops s = (done.find? (fun g => decide (g.id = s))).map (fun g => k.collect E true g.headOps.reverse [])
  index : ∀ i s, s ∈ (AMap.get b.index i).getD [] ↔ ∃ g ∈ done, i ∈ AMap.keys (k.listed g) ∧ s = g.id

theorem bulkGroups_spec {k : Keyhive} : ∀ (l done : List Group) (b : Bulk (AMap Nat Op)), ((done ++ l).map Group.id).Nodup →
    BulkInv E k done b → BulkInv E k (done ++ l) (l.foldl (k.bulkGroup E) b)
  | [], done, b, _, h => by simpa using h
  | g :: l, done, b, hn, h => by
    rw [List.foldl_cons, show done ++ g :: l = (done ++ [g]) ++ l by simp]
    refine bulkGroups_spec l (done ++ [g]) _ (by simpa using hn) ⟨fun s => ?_, fun i s => ?_⟩
    · have hfresh : ∀ x ∈ done, x.id ≠ g.id := by
        intro x hx e
        rw [List.map_append, List.nodup_append] at hn
        exact hn.2.2 x.id (List.mem_map_of_mem hx) g.id (by simp) e
      unfold bulkGroup
      rw [AMap.get_insert, List.find?_append]
      by_cases hs : s = g.id
      · subst hs
        rw [if_pos rfl, List.find?_eq_none.2 (by simpa using hfresh)]
        simp
      · rw [if_neg hs, h.ops]
        have : List.find? (fun x : Group => decide (x.id = s)) [g] = none := by simp [Ne.symm hs]
        rw [this, Option.or_none]
    · unfold bulkGroup
      rw [mem_point, h.index]
      simp only [List.mem_append, List.mem_singleton]
      constructor
      · rintro (⟨x, h1, h2, h3⟩ | ⟨h1, h2⟩)
        · exact ⟨x, .inl h1, h2, h3⟩
        · exact ⟨g, .inr rfl, h1, h2⟩
      · rintro ⟨x, h1 | rfl, h2, h3⟩
        · exact .inl ⟨x, h1, h2, h3⟩
        · exact .inr ⟨h2, h3⟩

/-- The operations under a source: its own part and the part of the revocations `done` about it. -/
def Under (k : Keyhive) (done : List Rev) (s : Id) (o : Op) : Prop :=
  (∃ g ∈ k.allGroups, g.id = s ∧ ∃ h ∈ g.headOps, ReflTransGen (fun a b => b ∈ k.edges true a) h o) ∨
    ∃ r ∈ done, r.revoke.delegate.id = s ∧ ReflTransGen (fun a b => b ∈ k.edges false a) (.rev r) o

/-- The bulk result after the revocations `done`. -/
structure RevInv (E : Env) (k : Keyhive) (done : List Rev) (b : Bulk (AMap Nat Op)) : Prop where
  ops : ∀ s h o, AMap.get ((AMap.get b.ops s).getD []) h = some o ↔ h = E.opDigest o ∧ Under k done s o
  closed : ∀ s, Closed E k false ((AMap.get b.ops s).getD [])
  index : ∀ i s, s ∈ (AMap.get b.index i).getD [] ↔ (∃ g ∈ k.allGroups, i ∈ AMap.keys (k.listed g) ∧ s = g.id) ∨
    ∃ r ∈ done, r.revoke.delegate.id = i ∧ s = i

theorem bulkRevs_spec {k : Keyhive} (ha : Apart E k) : ∀ (l done : List Rev) (b : Bulk (AMap Nat Op)), (∀ r ∈ l, r ∈ AMap.values k.revs) →
    RevInv E k done b → RevInv E k (done ++ l) (l.foldl (k.bulkRev E) b)
  | [], done, b, _, h => by simpa using h
  | r :: l, done, b, hl, h => by
    rw [List.foldl_cons, show done ++ r :: l = (done ++ [r]) ++ l by simp]
    have hr : ∀ o ∈ [Op.rev r], o ∈ k.everyOp := by
      intro o ho
      rw [List.mem_singleton] at ho
      subst ho
      exact rev_every (hl r List.mem_cons_self)
    have hother : ∀ s, s ≠ r.revoke.delegate.id → ∀ o, Under k (done ++ [r]) s o ↔ Under k done s o := by
      intro s hs o
      unfold Under
      refine or_congr Iff.rfl ⟨?_, ?_⟩
      · rintro ⟨x, hx, e, h⟩
        rcases List.mem_append.1 hx with hx | hx
        · exact ⟨x, hx, e, h⟩
        · rw [List.mem_singleton] at hx; subst hx; exact absurd e.symm hs
      · rintro ⟨x, hx, e, h⟩
        exact ⟨x, List.mem_append_left _ hx, e, h⟩
    refine bulkRevs_spec ha l (done ++ [r]) _ (fun x hx => hl x (List.mem_cons_of_mem _ hx)) ⟨fun s x o => ?_, fun s => ?_, fun i s => ?_⟩
    · unfold bulkRev
      simp only [AMap.get_insert]
      by_cases hs : s = r.revoke.delegate.id
      · rw [if_pos hs, Option.getD_some, collect_iff ha hr (h.closed _), ← hs, h.ops]
        unfold Under
        simp only [List.mem_append, List.mem_singleton, exists_eq_left]
        constructor
        · rintro (⟨e, h1 | ⟨y, h1, h2, h3⟩⟩ | ⟨e, h1⟩)
          · exact ⟨e, .inl h1⟩
          · exact ⟨e, .inr ⟨y, .inl h1, h2, h3⟩⟩
          · exact ⟨e, .inr ⟨r, .inr rfl, hs.symm, h1⟩⟩
        · rintro ⟨e, h1 | ⟨y, h1 | rfl, h2, h3⟩⟩
          · exact .inl ⟨e, .inl h1⟩
          · exact .inl ⟨e, .inr ⟨y, h1, h2, h3⟩⟩
          · exact .inr ⟨e, h3⟩
      · rw [if_neg hs, h.ops, hother s hs]
    · unfold bulkRev
      simp only [AMap.get_insert]
      by_cases hs : s = r.revoke.delegate.id
      · rw [if_pos hs, Option.getD_some]
        exact collect_closed hr (h.closed _)
      · rw [if_neg hs]
        exact h.closed s
    · unfold bulkRev
      simp only [Topsort.get_addTo]
      by_cases hi : i = r.revoke.delegate.id
      · rw [if_pos hi, Option.getD_some, mem_sinsert, ← hi, h.index]
        simp only [List.mem_append, List.mem_singleton]
        constructor
        · rintro (rfl | h1 | ⟨x, h1, h2, h3⟩)
          · exact .inr ⟨r, .inr rfl, hi.symm, rfl⟩
          · exact .inl h1
          · exact .inr ⟨x, .inl h1, h2, h3⟩
        · rintro (h1 | ⟨x, h1 | rfl, h2, h3⟩)
          · exact .inr (.inl h1)
          · exact .inr (.inr ⟨x, h1, h2, h3⟩)
          · exact .inl h3
      · rw [if_neg hi, h.index]
        simp only [List.mem_append, List.mem_singleton]
        constructor
        · rintro (h1 | ⟨x, h1, h2, h3⟩)
          · exact .inl h1
          · exact .inr ⟨x, .inl h1, h2, h3⟩
        · rintro (h1 | ⟨x, h1 | rfl, h2, h3⟩)
          · exact .inl h1
          · exact .inr ⟨x, h1, h2, h3⟩
          · exact absurd h2.symm hi

theorem bulk_spec {k : Keyhive} (hk : Kept E k) (hw : AMap.WF k.world) (ha : Apart E k) :
    RevInv E k (AMap.values k.revs) (k.membershipOpsForAll E) := by
  have h1 : BulkInv E k k.allGroups (k.allGroups.foldl (k.bulkGroup E) ⟨[], []⟩) := by
    have := bulkGroups_spec (E := E) (k := k) k.allGroups [] ⟨[], []⟩ (by simpa using allGroups_ids hk hw) ⟨fun s => rfl, fun i s => by simp⟩
    simpa using this
  have hfind : ∀ s, (k.allGroups.find? (fun g => decide (g.id = s))) = none ∨
      ∃ g ∈ k.allGroups, g.id = s ∧ k.allGroups.find? (fun g => decide (g.id = s)) = some g := by
    intro s
    cases hf : k.allGroups.find? (fun g => decide (g.id = s)) with
    | none => exact .inl rfl
    | some g => exact .inr ⟨g, List.mem_of_find?_eq_some hf, by simpa using List.find?_some hf, rfl⟩
  have huniq : ∀ g ∈ k.allGroups, ∀ g' ∈ k.allGroups, g.id = g'.id → g = g' := by
    intro g hg g' hg' e
    have h1 := (mem_allGroups hk hw).1 hg
    have h2 := (mem_allGroups hk hw).1 hg'
    rw [e, h2] at h1
    exact (Option.some.inj h1).symm
  have hheads : ∀ g ∈ k.allGroups, ∀ o ∈ g.headOps.reverse, o ∈ k.everyOp :=
    fun g hg o ho => heads_every hg (List.mem_reverse.1 ho)
  have h2 : RevInv E k [] (k.allGroups.foldl (k.bulkGroup E) ⟨[], []⟩) := by
    refine ⟨fun s h o => ?_, fun s => ?_, fun i s => ?_⟩
    · rw [h1.ops]
      unfold Under
      simp only [List.not_mem_nil, false_and, exists_false, or_false]
      rcases hfind s with hf | ⟨g, hg, rfl, hf⟩
      · rw [hf]
        simp only [Option.map_none, Option.getD_none, AMap.get_nil, reduceCtorEq, false_iff]
        rintro ⟨_, g, hg, e, _⟩
        have := List.find?_eq_none.1 hf g hg
        simp [e] at this
      · rw [hf]
        simp only [Option.map_some, Option.getD_some]
        rw [collect_iff ha (hheads g hg) .nil]
        simp only [AMap.get_nil, reduceCtorEq, false_or, List.mem_reverse]
        refine and_congr Iff.rfl ⟨fun h => ⟨g, hg, rfl, h⟩, ?_⟩
        rintro ⟨g', hg', e, h⟩
        rw [← huniq g' hg' g hg e]
        exact h
    · rw [h1.ops]
      rcases hfind s with hf | ⟨g, hg, rfl, hf⟩
      · rw [hf]; exact .nil
      · rw [hf]
        exact (collect_closed (hheads g hg) .nil).weaken
    · rw [h1.index]
      simp
  have := bulkRevs_spec ha (AMap.values k.revs) [] _ (fun r h => h) h2
  simpa [membershipOpsForAll] using this

/-- What the bulk query gives an agent. -/
theorem bulk_iff {k : Keyhive} (hk : Kept E k) (hw : AMap.WF k.world) (ha : Apart E k) {i : Id} {h : Nat} {o : Op} :
    (∃ m ∈ ((k.membershipOpsForAll E).opsFor i).getD [], AMap.get m h = some o) ↔ h = E.opDigest o ∧ ∃ s,
      ((∃ g ∈ k.allGroups, i ∈ AMap.keys (k.listed g) ∧ s = g.id) ∨ ∃ r ∈ AMap.values k.revs, r.revoke.delegate.id = i ∧ s = i) ∧
        Under k (AMap.values k.revs) s o := by
  have hb := bulk_spec (E := E) hk hw ha
  have h1 : (∃ m ∈ ((k.membershipOpsForAll E).opsFor i).getD [], AMap.get m h = some o) ↔
      ∃ s ∈ (AMap.get (k.membershipOpsForAll E).index i).getD [], AMap.get ((AMap.get (k.membershipOpsForAll E).ops s).getD []) h = some o := by
    unfold Bulk.opsFor
    cases AMap.get (k.membershipOpsForAll E).index i with
    | none => simp
    | some ids =>
      simp only [Option.map_some, Option.getD_some, List.mem_filterMap]
      constructor
      · rintro ⟨m, ⟨s, hs, e⟩, hg⟩
        exact ⟨s, hs, by rw [e]; exact hg⟩
      · rintro ⟨s, hs, hg⟩
        cases e : AMap.get (k.membershipOpsForAll E).ops s with
        | none => rw [e] at hg; cases hg
        | some m => rw [e] at hg; exact ⟨m, ⟨s, hs, e⟩, hg⟩
  rw [h1]
  constructor
  · rintro ⟨s, hs, hg⟩
    obtain ⟨e, hu⟩ := (hb.ops s h o).1 hg
    exact ⟨e, s, (hb.index i s).1 hs, hu⟩
  · rintro ⟨e, s, hs, hu⟩
    exact ⟨s, (hb.index i s).2 hs, (hb.ops s h o).2 ⟨e, hu⟩⟩

end Keyhive

end Verif.Keyhive

namespace Verif.Keyhive.Keyhive

open Verif.Group Verif.Cgka Verif.BeeKem Relation

variable {E : Env}

theorem apart_of_distinct {k : Keyhive} (hw : AMap.WF k.world) (h : Distinct E k) : Apart E k := by
  have key : ∀ x ∈ k.everyOp, Known k x := by
    intro x hx
    rcases mem_everyOp.1 hx with ⟨i, g, h, hm, hh, hr⟩ | h
    · exact .inl ⟨i, g, AMap.get_of_mem hw hm, h, hh, hr⟩
    · exact .inr h
  exact fun a ha b hb => h a b (key a ha) (key b hb)

/-! ## Group-key operations -/

/-- The bulk result after the documents `done`. -/
structure CgkaInv (k : Keyhive) (done : List Doc) (b : Bulk (List (Id × SOp))) : Prop where
  ops : ∀ s l, AMap.get b.ops s = some l → ∃ d ∈ done, d.group.id = s ∧ ∃ os, cgkaOps d = some os ∧ l = os.map (s, ·)
  index : ∀ i s, s ∈ (AMap.get b.index i).getD [] → ∃ d ∈ done, i ∈ AMap.keys (k.listed d.group) ∧ s = d.group.id
  all : ∀ d ∈ done, ∀ o os, cgkaOps d = some os → o ∈ os → AMap.get b.ops d.group.id = some (os.map (d.group.id, ·)) ∧
    ∀ i ∈ AMap.keys (k.listed d.group), d.group.id ∈ (AMap.get b.index i).getD []

theorem bulkCgka_spec {k : Keyhive} : ∀ (l done : List Doc) (b : Bulk (List (Id × SOp))),
    ((done ++ l).map (fun d => d.group.id)).Nodup → CgkaInv k done b → CgkaInv k (done ++ l) (l.foldl k.bulkCgka b)
  | [], done, b, _, h => by simpa using h
  | d :: l, done, b, hn, h => by
    rw [List.foldl_cons, show done ++ d :: l = (done ++ [d]) ++ l by simp]
    have hfresh : ∀ x ∈ done, x.group.id ≠ d.group.id := by
      intro x hx e
      rw [List.map_append, List.nodup_append] at hn
      exact hn.2.2 x.group.id (List.mem_map_of_mem (f := fun d : Doc => d.group.id) hx) d.group.id (by simp) e
    refine bulkCgka_spec l (done ++ [d]) _ (by simpa using hn) ?_
    have hskip : (∀ o os, cgkaOps d = some os → o ∉ os) → CgkaInv k (done ++ [d]) b := by
      intro hd
      refine ⟨fun s l hl => ?_, fun i s hs => ?_, fun x hx o os ho hm => ?_⟩
      · obtain ⟨x, hx, h1⟩ := h.ops s l hl
        exact ⟨x, List.mem_append_left _ hx, h1⟩
      · obtain ⟨x, hx, h1⟩ := h.index i s hs
        exact ⟨x, List.mem_append_left _ hx, h1⟩
      · rcases List.mem_append.1 hx with hx | hx
        · exact h.all x hx o os ho hm
        · rw [List.mem_singleton] at hx; subst hx
          exact absurd hm (hd o os ho)
    unfold bulkCgka
    split
    · rename_i hc
      exact hskip (fun o os ho => by rw [hc] at ho; cases ho)
    · rename_i hc
      exact hskip (fun o os ho => by rw [hc] at ho; cases ho; simp)
    · rename_i os hne hc
      refine ⟨fun s l hl => ?_, fun i s hs => ?_, fun x hx o os' ho hm => ?_⟩
      · rw [AMap.get_insert] at hl
        split at hl
        · rename_i e; cases hl; subst e
          exact ⟨d, List.mem_append_right _ (List.mem_singleton.2 rfl), rfl, os, hc, rfl⟩
        · obtain ⟨x, hx, h1⟩ := h.ops s l hl
          exact ⟨x, List.mem_append_left _ hx, h1⟩
      · rcases (mem_point _ _ _ _ _).1 hs with hs | ⟨h1, h2⟩
        · obtain ⟨x, hx, h1⟩ := h.index i s hs
          exact ⟨x, List.mem_append_left _ hx, h1⟩
        · exact ⟨d, List.mem_append_right _ (List.mem_singleton.2 rfl), h1, h2⟩
      · rcases List.mem_append.1 hx with hx | hx
        · obtain ⟨h1, h2⟩ := h.all x hx o os' ho hm
          exact ⟨by rw [AMap.get_insert_ne _ _ (hfresh x hx)]; exact h1, fun i hi => (mem_point _ _ _ _ _).2 (.inl (h2 i hi))⟩
        · rw [List.mem_singleton] at hx; subst hx
          rw [hc] at ho; cases ho
          exact ⟨AMap.get_insert_self _ _ _, fun i hi => (mem_point _ _ _ _ _).2 (.inr ⟨hi, rfl⟩)⟩

theorem cgka_agree {k : Keyhive} (hk : Kept E k) (hw : AMap.WF k.world) {i did : Id} {op : SOp} :
    (did, op) ∈ k.cgkaOpsFor i ↔ ∃ l ∈ (k.cgkaOpsForAll.opsFor i).getD [], (did, op) ∈ l := by
  have hb : CgkaInv k (AMap.values k.docs) k.cgkaOpsForAll := by
    have := bulkCgka_spec (k := k) (AMap.values k.docs) [] ⟨[], []⟩ (by simpa using docs_ids hk hw)
      ⟨fun s l h => (by cases h), fun i s h => (by cases h), fun d h => (by cases h)⟩
    simpa [cgkaOpsForAll] using this
  have hd : ∀ d ∈ AMap.values k.docs, AMap.get k.docs d.group.id = some d := fun d h => (mem_docs hk hw).1 h
  have h1 : (did, op) ∈ k.cgkaOpsFor i ↔ ∃ d ∈ AMap.values k.docs, i ∈ AMap.keys (k.listed d.group) ∧ d.group.id = did ∧
      ∃ os, cgkaOps d = some os ∧ op ∈ os := by
    unfold cgkaOpsFor
    rw [List.mem_flatMap]
    constructor
    · rintro ⟨x, hx, hm⟩
      rw [AMap.mem_keys_iff] at hx
      obtain ⟨acc, hacc⟩ := Option.ne_none_iff_exists'.1 hx
      obtain ⟨doc, a, e1, e2⟩ := (docsReachable_iff hk hw).1 hacc
      rw [e1] at hm
      obtain ⟨o, ho, e⟩ := List.mem_map.1 hm
      cases e
      cases hc : cgkaOps doc with
      | none => rw [hc] at ho; cases ho
      | some os =>
        rw [hc] at ho
        refine ⟨doc, List.mem_map.2 ⟨_, AMap.mem_of_get e1, rfl⟩, ?_, (hk.docs e1).1, os, hc, ho⟩
        rw [AMap.mem_keys_iff, e2]; simp
    · rintro ⟨d, hdm, hi, rfl, os, hc, ho⟩
      rw [AMap.mem_keys_iff] at hi
      obtain ⟨⟨a, x⟩, hax⟩ := Option.ne_none_iff_exists'.1 hi
      refine ⟨d.group.id, ?_, ?_⟩
      · rw [AMap.mem_keys_iff, (docsReachable_iff hk hw).2 ⟨d, a, hd d hdm, hax⟩]; simp
      · rw [hd d hdm]
        simp only [hc, Option.getD_some]
        exact List.mem_map.2 ⟨op, ho, rfl⟩
  rw [h1]
  unfold Bulk.opsFor
  constructor
  · rintro ⟨d, hdm, hi, rfl, os, hc, ho⟩
    obtain ⟨e1, e2⟩ := hb.all d hdm op os hc ho
    have := e2 i hi
    cases hx : AMap.get k.cgkaOpsForAll.index i with
    | none => rw [hx] at this; cases this
    | some ids =>
      rw [hx] at this
      exact ⟨_, List.mem_filterMap.2 ⟨_, this, e1⟩, List.mem_map.2 ⟨op, ho, rfl⟩⟩
  · rintro ⟨l, hl, hm⟩
    cases hx : AMap.get k.cgkaOpsForAll.index i with
    | none => rw [hx] at hl; cases hl
    | some ids =>
      rw [hx] at hl
      obtain ⟨s, hs, e⟩ := List.mem_filterMap.1 hl
      obtain ⟨d, hdm, rfl, os, hc, rfl⟩ := hb.ops s l e
      obtain ⟨o, ho, e'⟩ := List.mem_map.1 hm
      cases e'
      obtain ⟨d', hdm', hi, e''⟩ := hb.index i d.group.id (by rw [hx]; exact hs)
      have h2 := hd d' hdm'
      rw [← e'', hd d hdm] at h2
      cases h2
      exact ⟨d, hdm, hi, rfl, os, hc, ho⟩

/-! ## Prekey operations -/

theorem get_extend : ∀ (ops s : Prekey.State), AMap.WF ops → ∀ h,
    AMap.get (ops.foldl (fun s p => AMap.insert s p.1 p.2) s) h = (AMap.get ops h).orElse (fun _ => AMap.get s h)
  | [], s, _, h => by simp
  | (x, v) :: ops, s, hw, h => by
    unfold AMap.WF AMap.keys at hw
    rw [List.map_cons, List.nodup_cons] at hw
    rw [List.foldl_cons, get_extend ops _ hw.2, AMap.get_cons, AMap.get_insert]
    by_cases hx : h = x
    · subst hx
      have : AMap.get ops h = none := by
        cases hg : AMap.get ops h with
        | none => rfl
        | some w => exact absurd (List.mem_map_of_mem (f := Prod.fst) (AMap.mem_of_get hg)) hw.1
      simp [this]
    · simp [hx, Ne.symm hx]

/-- What one map says about an id: the operations of an agent met under it. -/
def Says (k : Keyhive) (a : Agent) (m : AMap Id Prekey.State) : Prop :=
  ∀ x s, AMap.get m x = some s → ∃ b, Met k a x b ∧ ∀ h, AMap.get s h = AMap.get (k.keyOps b) h

section Prekeys
variable {k : Keyhive} {a : Agent} (hwf : ∀ b, AMap.WF (k.keyOps b)) (hK : ∀ x b c, Met k a x b → Met k a x c → k.keyOps b = k.keyOps c)

include hwf hK in
theorem says_add {m : AMap Id Prekey.State} (hm : Says k a m) {x : Id} {b : Agent} (hb : Met k a x b) :
    Says k a (addManyKeys m x (k.keyOps b)) := by
  intro y s hy
  unfold addManyKeys at hy
  rw [AMap.get_insert] at hy
  split at hy
  · rename_i e; subst e; cases hy
    refine ⟨b, hb, fun h => ?_⟩
    rw [get_extend _ _ (hwf b)]
    cases hg : AMap.get m y with
    | none => cases AMap.get (k.keyOps b) h <;> simp
    | some s' =>
      obtain ⟨c, hc, he⟩ := hm y s' hg
      rw [Option.getD_some, he, hK _ _ _ hc hb]
      cases AMap.get (k.keyOps b) h <;> simp
  · exact hm y s hy

theorem says_cache {m : AMap Id Prekey.State} (hm : Says k a m) {x : Id} {b : Agent} (hb : Met k a x b) :
    Says k a (cacheKeys m x (k.keyOps b)) := by
  intro y s hy
  unfold cacheKeys at hy
  rw [AMap.get_orInsert] at hy
  split at hy
  · rename_i e; cases hy; rw [e.1]; exact ⟨b, hb, fun _ => rfl⟩
  · exact hm y s hy

theorem keys_add (m : AMap Id Prekey.State) (x y : Id) (s : Prekey.State) :
    (AMap.get (addManyKeys m x s) y).isSome = true ↔ y = x ∨ (AMap.get m y).isSome = true := by
  unfold addManyKeys
  rw [AMap.get_insert]
  split
  · rename_i e; simp [e]
  · rename_i e; simp [e]

theorem keys_cache (m : AMap Id Prekey.State) (x y : Id) (s : Prekey.State) :
    (AMap.get (cacheKeys m x s) y).isSome = true ↔ y = x ∨ (AMap.get m y).isSome = true := by
  unfold cacheKeys
  rw [AMap.get_orInsert]
  split
  · rename_i e; simp [e.1]
  · rename_i e
    constructor
    · exact .inr
    · rintro (rfl | h)
      · cases hg : AMap.get m y with
        | none => exact absurd ⟨rfl, hg⟩ e
        | some => rfl
      · exact h

include hwf hK in
theorem singleMembers_spec {b : Agent} {g : Group} (hs : (b, g) ∈ k.sources) : ∀ (l : List (Id × Agent × Access)) (m : AMap Id Prekey.State),
    (∀ p ∈ l, p ∈ k.listed g) → Says k a m →
      Says k a (l.foldl (fun m p => if AMap.contains m p.1 then m else addManyKeys m p.1 (k.keyOps p.2.1)) m) ∧
      ∀ y, (AMap.get (l.foldl (fun m p => if AMap.contains m p.1 then m else addManyKeys m p.1 (k.keyOps p.2.1)) m) y).isSome = true ↔
        (AMap.get m y).isSome = true ∨ y ∈ l.map Prod.fst
  | [], m, _, hm => ⟨hm, fun y => by simp⟩
  | (i, c, x) :: l, m, hl, hm => by
    rw [List.foldl_cons]
    have hmet : Met k a i c := .member hs (hl _ List.mem_cons_self)
    by_cases hc : AMap.contains m i = true
    · rw [if_pos hc]
      obtain ⟨h1, h2⟩ := singleMembers_spec hs l m (fun p hp => hl p (List.mem_cons_of_mem _ hp)) hm
      refine ⟨h1, fun y => ?_⟩
      rw [h2, List.map_cons, List.mem_cons]
      constructor
      · rintro (h | h)
        · exact .inl h
        · exact .inr (.inr h)
      · rintro (h | rfl | h)
        · exact .inl h
        · exact .inl hc
        · exact .inr h
    · rw [if_neg hc]
      obtain ⟨h1, h2⟩ := singleMembers_spec hs l (addManyKeys m i (k.keyOps c)) (fun p hp => hl p (List.mem_cons_of_mem _ hp))
        (says_add hwf hK hm hmet)
      refine ⟨h1, fun y => ?_⟩
      rw [h2, keys_add, List.map_cons, List.mem_cons]
      constructor
      · rintro ((rfl | h) | h)
        · exact .inr (.inl rfl)
        · exact .inl h
        · exact .inr (.inr h)
      · rintro (h | rfl | h)
        · exact .inl (.inr h)
        · exact .inl (.inl rfl)
        · exact .inr h

include hwf hK in
theorem singleSources_spec : ∀ (l : List (Agent × Group)) (m : AMap Id Prekey.State), (∀ p ∈ l, p ∈ k.sources) → Says k a m →
    Says k a (l.foldl (k.prekeysOf a.id) m) ∧
    ∀ y, (AMap.get (l.foldl (k.prekeysOf a.id) m) y).isSome = true ↔ (AMap.get m y).isSome = true ∨
      ∃ p ∈ l, AMap.contains (k.listed p.2) a.id = true ∧ (y = p.1.id ∨ y ∈ AMap.keys (k.listed p.2))
  | [], m, _, hm => ⟨hm, fun y => by simp⟩
  | (b, g) :: l, m, hl, hm => by
    rw [List.foldl_cons]
    have hs := hl _ List.mem_cons_self
    have hl' : ∀ p ∈ l, p ∈ k.sources := fun p hp => hl p (List.mem_cons_of_mem _ hp)
    by_cases hc : AMap.contains (k.listed g) a.id = true
    · obtain ⟨e1, e2⟩ := singleMembers_spec hwf hK hs (k.listed g) (addManyKeys m b.id (k.keyOps b)) (fun p hp => hp)
        (says_add hwf hK hm (.source hs))
      have he : k.prekeysOf a.id m (b, g) = (k.listed g).foldl (fun m p => if AMap.contains m p.1 then m else addManyKeys m p.1 (k.keyOps p.2.1))
          (addManyKeys m b.id (k.keyOps b)) := by unfold prekeysOf; exact if_pos hc
      rw [he]
      obtain ⟨h1, h2⟩ := singleSources_spec l _ hl' e1
      refine ⟨h1, fun y => ?_⟩
      rw [h2, e2, keys_add]
      simp only [List.mem_cons, exists_eq_or_imp, hc, true_and]
      constructor
      · rintro (((h | h) | h) | h)
        · exact .inr (.inl (.inl h))
        · exact .inl h
        · exact .inr (.inl (.inr h))
        · exact .inr (.inr h)
      · rintro (h | (h | h) | h)
        · exact .inl (.inl (.inr h))
        · exact .inl (.inl (.inl h))
        · exact .inl (.inr h)
        · exact .inr h
    · have he : k.prekeysOf a.id m (b, g) = m := by unfold prekeysOf; exact if_neg hc
      rw [he]
      obtain ⟨h1, h2⟩ := singleSources_spec l m hl' hm
      refine ⟨h1, fun y => ?_⟩
      rw [h2]
      simp [hc]

include hwf hK in
theorem single_prekeys : Says k a (k.prekeyOpsFor a) ∧ ∀ y, (AMap.get (k.prekeyOpsFor a) y).isSome = true ↔
    y = k.reg.me ∨ y = a.id ∨ ∃ p ∈ k.sources, AMap.contains (k.listed p.2) a.id = true ∧ (y = p.1.id ∨ y ∈ AMap.keys (k.listed p.2)) := by
  have h0 : Says k a [] := fun x s h => by cases h
  obtain ⟨h1, h2⟩ := singleSources_spec hwf hK k.sources _ (fun p h => h)
    (says_add hwf hK (says_add hwf hK h0 .me) .asked)
  refine ⟨h1, fun y => ?_⟩
  unfold prekeyOpsFor
  rw [h2, keys_add, keys_add]
  simp only [AMap.get_nil, Option.isSome_none, Bool.false_eq_true, or_false]
  constructor
  · rintro ((h | h) | h)
    · exact .inr (.inl h)
    · exact .inl h
    · exact .inr (.inr h)
  · rintro (h | h | h)
    · exact .inl (.inr h)
    · exact .inl (.inl h)
    · exact .inr h

theorem cacheMembers_spec {b : Agent} {g : Group} (hs : (b, g) ∈ k.sources) : ∀ (l : List (Id × Agent × Access)) (m : AMap Id Prekey.State),
    (∀ p ∈ l, p ∈ k.listed g) → Says k a m →
      Says k a (l.foldl (fun m p => cacheKeys m p.1 (k.keyOps p.2.1)) m) ∧
      ∀ y, (AMap.get (l.foldl (fun m p => cacheKeys m p.1 (k.keyOps p.2.1)) m) y).isSome = true ↔
        (AMap.get m y).isSome = true ∨ y ∈ l.map Prod.fst
  | [], m, _, hm => ⟨hm, fun y => by simp⟩
  | (i, c, x) :: l, m, hl, hm => by
    rw [List.foldl_cons]
    obtain ⟨h1, h2⟩ := cacheMembers_spec hs l _ (fun p hp => hl p (List.mem_cons_of_mem _ hp))
      (says_cache hm (.member hs (hl _ List.mem_cons_self)))
    refine ⟨h1, fun y => ?_⟩
    rw [h2, keys_cache, List.map_cons, List.mem_cons]
    constructor
    · rintro ((h | h) | h)
      · exact .inr (.inl h)
      · exact .inl h
      · exact .inr (.inr h)
    · rintro (h | h | h)
      · exact .inl (.inr h)
      · exact .inl (.inl h)
      · exact .inr h

theorem cacheSources_spec : ∀ (l : List (Agent × Group)) (m : AMap Id Prekey.State), (∀ p ∈ l, p ∈ k.sources) → Says k a m →
    Says k a (l.foldl k.cacheSource m) ∧
    ∀ y, (AMap.get (l.foldl k.cacheSource m) y).isSome = true ↔ (AMap.get m y).isSome = true ∨
      ∃ p ∈ l, y = p.1.id ∨ y ∈ AMap.keys (k.listed p.2)
  | [], m, _, hm => ⟨hm, fun y => by simp⟩
  | (b, g) :: l, m, hl, hm => by
    rw [List.foldl_cons]
    have hs := hl _ List.mem_cons_self
    obtain ⟨e1, e2⟩ := cacheMembers_spec hs (k.listed g) _ (fun p hp => hp) (says_cache hm (.source hs))
    obtain ⟨h1, h2⟩ := cacheSources_spec l (k.cacheSource m (b, g)) (fun p hp => hl p (List.mem_cons_of_mem _ hp)) e1
    refine ⟨h1, fun y => ?_⟩
    rw [h2]
    unfold cacheSource
    rw [e2, keys_cache]
    simp only [List.mem_cons, exists_eq_or_imp]
    constructor
    · rintro (((h | h) | h) | h)
      · exact .inr (.inl (.inl h))
      · exact .inl h
      · exact .inr (.inl (.inr h))
      · exact .inr (.inr h)
    · rintro (h | (h | h) | h)
      · exact .inl (.inl (.inr h))
      · exact .inl (.inl (.inl h))
      · exact .inl (.inr h)
      · exact .inr h

theorem cacheIndies_spec (hwfr : AMap.WF k.reg.indies) : ∀ (l : List (Id × Prekey.Indie)) (m : AMap Id Prekey.State),
    (∀ p ∈ l, p ∈ k.registered) → Says k a m →
      Says k a (l.foldl (fun m p => cacheKeys m p.1 p.2.state) m) ∧
      ∀ y, (AMap.get (l.foldl (fun m p => cacheKeys m p.1 p.2.state) m) y).isSome = true ↔
        (AMap.get m y).isSome = true ∨ y ∈ l.map Prod.fst
  | [], m, _, hm => ⟨hm, fun y => by simp⟩
  | (i, p) :: l, m, hl, hm => by
    rw [List.foldl_cons]
    have hp := hl _ List.mem_cons_self
    have hk : k.keyOps ⟨.individual, i⟩ = p.state := by
      unfold registered at hp
      have := AMap.get_of_mem hwfr (List.mem_filter.1 hp).1
      unfold keyOps
      simp [Agent.isMembered, this]
    obtain ⟨h1, h2⟩ := cacheIndies_spec hwfr l (cacheKeys m i p.state) (fun p hp => hl p (List.mem_cons_of_mem _ hp)) (by
      rw [← hk]; exact says_cache hm (.registered hp))
    refine ⟨h1, fun y => ?_⟩
    rw [h2, keys_cache, List.map_cons, List.mem_cons]
    constructor
    · rintro ((h | h) | h)
      · exact .inr (.inl h)
      · exact .inl h
      · exact .inr (.inr h)
    · rintro (h | h | h)
      · exact .inl (.inr h)
      · exact .inl (.inl h)
      · exact .inr h

theorem bulk_prekeys (hwfr : AMap.WF k.reg.indies) : Says k a k.prekeyOpsForAll.ops ∧
    ∀ y, (AMap.get k.prekeyOpsForAll.ops y).isSome = true ↔ y = k.reg.me ∨ (∃ p ∈ k.sources, y = p.1.id ∨ y ∈ AMap.keys (k.listed p.2)) ∨
      y ∈ AMap.keys k.registered := by
  have h0 : Says k a (AMap.insert [] k.reg.me (k.keyOps ⟨.active, k.reg.me⟩)) := by
    intro x s h
    rw [AMap.get_insert] at h
    split at h
    · rename_i e; cases h; rw [e]; exact ⟨_, .me, fun _ => rfl⟩
    · cases h
  obtain ⟨e1, e2⟩ := cacheSources_spec k.sources _ (fun p h => h) h0
  obtain ⟨h1, h2⟩ := cacheIndies_spec hwfr k.registered _ (fun p h => h) e1
  refine ⟨h1, fun y => ?_⟩
  unfold prekeyOpsForAll
  simp only
  rw [h2, e2, AMap.get_insert]
  by_cases hy : y = k.reg.me
  · simp [hy]
  · simp only [hy, if_false, AMap.get_nil, Option.isSome_none, Bool.false_eq_true, false_or]
    rfl

theorem mem_addTos (i : Id) : ∀ (xs : List Id) (m : AMap Id (List Id)) (j y : Id),
    y ∈ (AMap.get (xs.foldl (fun m x => Topsort.addTo m i x) m) j).getD [] ↔ y ∈ (AMap.get m j).getD [] ∨ j = i ∧ y ∈ xs
  | [], m, j, y => by simp
  | x :: xs, m, j, y => by
    rw [List.foldl_cons, mem_addTos i xs, Topsort.get_addTo]
    by_cases h : j = i
    · subst h
      simp only [if_true, Option.getD_some, mem_sinsert, true_and, List.mem_cons]
      constructor
      · rintro ((h | h) | h)
        · exact .inr (.inl h)
        · exact .inl h
        · exact .inr (.inr h)
      · rintro (h | h | h)
        · exact .inl (.inr h)
        · exact .inl (.inl h)
        · exact .inr h
    · simp [h]

theorem mem_pointAll (f : Id → List Id) : ∀ (is : List Id) (m : AMap Id (List Id)) (j y : Id),
    y ∈ (AMap.get (is.foldl (fun m i => (f i).foldl (fun m x => Topsort.addTo m i x) m) m) j).getD [] ↔
      y ∈ (AMap.get m j).getD [] ∨ j ∈ is ∧ y ∈ f j
  | [], m, j, y => by simp
  | i :: is, m, j, y => by
    rw [List.foldl_cons, mem_pointAll f is, mem_addTos, List.mem_cons]
    constructor
    · rintro ((h | ⟨rfl, h⟩) | ⟨h1, h2⟩)
      · exact .inl h
      · exact .inr ⟨.inl rfl, h⟩
      · exact .inr ⟨.inr h1, h2⟩
    · rintro (h | ⟨rfl | h1, h2⟩)
      · exact .inl (.inl h)
      · exact .inl (.inr ⟨rfl, h2⟩)
      · exact .inr ⟨h1, h2⟩

theorem mem_pointSources : ∀ (l : List (Agent × Group)) (m : AMap Id (List Id)) (j y : Id),
    y ∈ (AMap.get (l.foldl k.pointSource m) j).getD [] ↔ y ∈ (AMap.get m j).getD [] ∨
      ∃ p ∈ l, j ∈ AMap.keys (k.listed p.2) ∧ (y = k.reg.me ∨ y = j ∨ y = p.1.id ∨ y ∈ AMap.keys (k.listed p.2))
  | [], m, j, y => by simp
  | (b, g) :: l, m, j, y => by
    rw [List.foldl_cons, mem_pointSources l]
    unfold pointSource
    simp only
    rw [mem_pointAll (fun i => [k.reg.me, i, b.id] ++ AMap.keys (k.listed g))]
    simp only [List.cons_append, List.nil_append, List.mem_cons, exists_eq_or_imp]
    rw [or_assoc]

theorem mem_pointIndies : ∀ (l : List (Id × Prekey.Indie)) (m : AMap Id (List Id)) (j y : Id),
    y ∈ (AMap.get (l.foldl (fun m p => Topsort.addTo (Topsort.addTo m p.1 k.reg.me) p.1 p.1) m) j).getD [] ↔
      y ∈ (AMap.get m j).getD [] ∨ j ∈ l.map Prod.fst ∧ (y = k.reg.me ∨ y = j)
  | [], m, j, y => by simp
  | (i, p) :: l, m, j, y => by
    rw [List.foldl_cons, mem_pointIndies l]
    have := mem_addTos i [k.reg.me, i] m j y
    rw [List.foldl_cons, List.foldl_cons, List.foldl_nil] at this
    rw [this, List.map_cons, List.mem_cons]
    simp only [List.mem_cons, List.mem_nil_iff, or_false]
    constructor
    · rintro ((h | ⟨rfl, h⟩) | ⟨h1, h2⟩)
      · exact .inl h
      · exact .inr ⟨.inl rfl, h⟩
      · exact .inr ⟨.inr h1, h2⟩
    · rintro (h | ⟨rfl | h1, h2⟩)
      · exact .inl (.inl h)
      · exact .inl (.inr ⟨rfl, h2⟩)
      · exact .inr ⟨h1, h2⟩

theorem index_prekeys (j y : Id) : y ∈ (AMap.get k.prekeyOpsForAll.index j).getD [] ↔
    (j = k.reg.me ∧ y = k.reg.me) ∨ (j ∈ AMap.keys k.registered ∧ (y = k.reg.me ∨ y = j)) ∨
      ∃ p ∈ k.sources, j ∈ AMap.keys (k.listed p.2) ∧ (y = k.reg.me ∨ y = j ∨ y = p.1.id ∨ y ∈ AMap.keys (k.listed p.2)) := by
  unfold prekeyOpsForAll
  simp only
  rw [mem_pointSources, mem_pointIndies]
  have := mem_addTos k.reg.me [k.reg.me] [] j y
  rw [List.foldl_cons, List.foldl_nil] at this
  rw [this]
  simp only [AMap.get_nil, Option.getD_none, List.mem_nil_iff, false_or, List.mem_singleton]
  rw [or_assoc]
  rfl

end Prekeys

theorem keyOps_same {k : Keyhive} {b c : Agent} (h1 : b.id = c.id) (h2 : b.isMembered = c.isMembered) : k.keyOps b = k.keyOps c := by
  unfold keyOps
  rw [h1, h2]

end Verif.Keyhive.Keyhive
