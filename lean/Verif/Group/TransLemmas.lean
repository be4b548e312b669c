import Verif.Group.Spec

/-! # Helper lemmas: `transitive_members` -/

namespace Verif.Group

theorem Access.le_refl' (a : Access) : a ≤ a := Nat.le_refl a.idx
theorem Access.le_trans' {a b c : Access} (h : a ≤ b) (h' : b ≤ c) : a ≤ c := Nat.le_trans (m := b.idx) h h'

theorem maxByCan_fold_mem (ds : List Dlg) (d : Dlg) :
    ds.foldl (fun best x => if x.can < best.can then best else x) d ∈ d :: ds ∧
      ∀ x ∈ d :: ds, x.can ≤ (ds.foldl (fun best x => if x.can < best.can then best else x) d).can := by
  induction ds generalizing d with
  | nil => simp [Access.le_refl']
  | cons y ds ih =>
    rw [List.foldl_cons]
    by_cases h : y.can < d.can
    · rw [if_pos h]
      obtain ⟨h1, h2⟩ := ih d
      refine ⟨?_, ?_⟩
      · rcases List.mem_cons.1 h1 with h1 | h1
        · rw [h1]; simp
        · simp [h1]
      · intro x hx
        rcases List.mem_cons.1 hx with rfl | hx
        · exact h2 _ (by simp)
        · rcases List.mem_cons.1 hx with rfl | hx
          · exact Access.le_trans' (Nat.le_of_lt h) (h2 d (by simp))
          · exact h2 _ (by simp [hx])
    · rw [if_neg h]
      obtain ⟨h1, h2⟩ := ih y
      refine ⟨List.mem_cons_of_mem _ h1, ?_⟩
      intro x hx
      rcases List.mem_cons.1 hx with rfl | hx
      · exact Access.le_trans' (Nat.le_of_not_lt h) (h2 y (by simp))
      · exact h2 _ hx

theorem maxByCan_some {ds : List Dlg} {c : Dlg} (h : maxByCan ds = some c) : c ∈ ds ∧ ∀ x ∈ ds, x.can ≤ c.can := by
  cases ds with
  | nil => simp [maxByCan] at h
  | cons d ds =>
    simp only [maxByCan, Option.some.injEq] at h
    subst h
    exact maxByCan_fold_mem ds d

theorem maxByCan_ne {ds : List Dlg} (h : ds ≠ []) : ∃ c, maxByCan ds = some c := by
  cases ds with
  | nil => exact absurd rfl h
  | cons d ds => exact ⟨_, rfl⟩

namespace Trans

/-- `d.delegate` has been processed or is on the stack. -/
def Known (P : List Agent) (t : Trans) (a : Agent) : Prop := a ∈ P ∨ ∃ x y, (a, x, y) ∈ t.explore

/-- An access level on a path to `a` is at least `x`. -/
def Weak (W : World) (g : Group) (a : Agent) (x : Access) : Prop := ∃ links, Path W g a links ∧ ∃ l ∈ links, x ≤ l

/-- Invariant of the loop; `P`: agents popped so far, `C`: those whose members have been looked at. -/
structure TInv (W : World) (g : Group) (C P : List Agent) (t : Trans) : Prop where
  stk : ∀ {a x y}, (a, x, y) ∈ t.explore → Weak W g a x ∧ ∃ links, Path W g a (x :: links)
  caps : ∀ {i a x}, AMap.get t.caps i = some (a, x) → a.id = i ∧ Weak W g a x
  done : ∀ {a}, a ∈ P → a.id ≠ g.id → AMap.get t.caps a.id ≠ none
  popped : ∀ {a}, a ∈ P → ∃ links, Path W g a links
  closed : ∀ {a h m d}, a ∈ C → a.id ≠ g.id → a.isMembered = true → AMap.get W a.id = some h → h.MemberBy m d →
    Known P t d.delegate
  seen : ∀ {s c}, (s, c) ∈ t.seen → ∃ d, Around W g d ∧ d.sig = s ∧ Known P t d.delegate
  roots : ∀ {m d}, g.MemberBy m d → Known P t d.delegate

variable {W : World} {g : Group} {C P : List Agent}

theorem Path.around_kind {a : Agent} {links : List Access} (h : Path W g a links) : ∃ d, Around W g d ∧ d.delegate = a := by
  cases h with
  | direct hm => exact ⟨_, Or.inl ⟨_, hm⟩, rfl⟩
  | nested _ _ _ hw hm => exact ⟨_, Or.inr ⟨_, _, _, hw, hm⟩, rfl⟩

theorem path_agree (hS : Sound W g) {a b : Agent} {la lb : List Access} (ha : Path W g a la) (hb : Path W g b lb)
    (h : a.id = b.id) : a = b := by
  obtain ⟨d, h1, rfl⟩ := Path.around_kind ha
  obtain ⟨e, h2, rfl⟩ := Path.around_kind hb
  exact hS.kind d e h1 h2 h

theorem mem_members (h : Group) (ht : h.Tidy) {m : Id} {ds : List Dlg} (hm : (m, ds) ∈ h.members) {d : Dlg} (hd : d ∈ ds) :
    h.MemberBy m d := ⟨ds, AMap.get_of_mem ht.1 hm, hd⟩

/-- What a turn may add: new stack entries and capabilities of members of a group already on a path. -/
structure Grow (W : World) (g : Group) (P : List Agent) (t t' : Trans) : Prop where
  stk : ∀ e ∈ t.explore, e ∈ t'.explore
  caps : ∀ i, AMap.get t.caps i ≠ none → AMap.get t'.caps i ≠ none

theorem Grow.refl {t : Trans} : Grow W g P t t := ⟨fun _ h => h, fun _ h => h⟩
theorem Grow.trans {t t' t'' : Trans} (h : Grow W g P t t') (h' : Grow W g P t' t'') : Grow W g P t t'' :=
  ⟨fun e he => h'.stk e (h.stk e he), fun i hi => h'.caps i (h.caps i hi)⟩

theorem Known.grow {t t' : Trans} (hg : Grow W g P t t') {a : Agent} (h : Known P t a) : Known P t' a := by
  rcases h with h | ⟨x, y, h⟩
  · exact Or.inl h
  · exact Or.inr ⟨x, y, hg.stk _ h⟩

theorem sub_grow (can best : Access) (t : Trans) (d : Dlg) : Grow W g P t (sub can best t d) := by
  unfold sub
  split
  · exact Grow.refl
  · exact ⟨fun e he => List.mem_cons_of_mem _ he, fun i hi => hi⟩

theorem sub_inv (hS : Sound W g) {t : Trans} (h : TInv W g C P t) (can best : Access) {d : Dlg} (hd : Around W g d)
    {links : List Access} (hp : Path W g d.delegate (d.can :: links)) :
    TInv W g C P (sub can best t d) ∧ Known P (sub can best t d) d.delegate := by
  have hg := sub_grow (W := W) (g := g) (P := P) can best t d
  unfold sub at hg ⊢
  split
  · rename_i hs
    rw [if_pos hs] at hg
    obtain ⟨e, h1, h2, h3⟩ := h.seen hs
    have : e = d := hS.sig e d h1 hd h2
    subst this
    exact ⟨h, h3⟩
  · rename_i hs
    rw [if_neg hs] at hg
    have hk : Known P { t with seen := (d.sig, can) :: t.seen, explore := (d.delegate, d.can, best) :: t.explore } d.delegate :=
      Or.inr ⟨d.can, best, by simp⟩
    refine ⟨⟨?_, h.caps, h.done, h.popped, ?_, ?_, fun hm => (h.roots hm).grow hg⟩, hk⟩
    · intro a x y hm
      rcases List.mem_cons.1 hm with hm | hm
      · cases hm
        exact ⟨⟨_, hp, d.can, by simp, Access.le_refl' _⟩, links, hp⟩
      · exact h.stk hm
    · intro a h' m e h1 h2 h3 h4 h5
      exact (h.closed h1 h2 h3 h4 h5).grow hg
    · intro s c hm
      rcases List.mem_cons.1 hm with hm | hm
      · cases hm
        exact ⟨d, hd, rfl, hk⟩
      · obtain ⟨e, h1, h2, h3⟩ := h.seen hm
        exact ⟨e, h1, h2, h3.grow hg⟩

theorem subs_inv (hS : Sound W g) (can best : Access) (ds : List Dlg) {t : Trans} (h : TInv W g C P t)
    (hd : ∀ d ∈ ds, Around W g d ∧ ∃ links, Path W g d.delegate (d.can :: links)) :
    TInv W g C P (ds.foldl (sub can best) t) ∧ Grow W g P t (ds.foldl (sub can best) t) ∧
      ∀ d ∈ ds, Known P (ds.foldl (sub can best) t) d.delegate := by
  induction ds generalizing t with
  | nil => exact ⟨h, Grow.refl, by simp⟩
  | cons d ds ih =>
    obtain ⟨h1, links, h2⟩ := hd d (by simp)
    obtain ⟨h3, h4⟩ := sub_inv hS h can best h1 h2
    obtain ⟨i1, i2, i3⟩ := ih h3 (fun e he => hd e (by simp [he]))
    refine ⟨i1, (sub_grow can best t d).trans i2, ?_⟩
    intro e he
    rcases List.mem_cons.1 he with rfl | he
    · exact h4.grow i2
    · exact i3 e he

theorem caps_insert_inv {t : Trans} (h : TInv W g C P t) {i : Id} {a : Agent} {x : Access} (ha : a.id = i) (hw : Weak W g a x) :
    TInv W g C P { t with caps := AMap.insert t.caps i (a, x) } ∧
      Grow W g P t { t with caps := AMap.insert t.caps i (a, x) } := by
  have hg : Grow W g P t { t with caps := AMap.insert t.caps i (a, x) } := by
    refine ⟨fun _ he => he, ?_⟩
    intro j hj
    show AMap.get (AMap.insert t.caps i (a, x)) j ≠ none
    rw [AMap.get_insert]
    split
    · simp
    · exact hj
  refine ⟨⟨h.stk, ?_, ?_, h.popped, h.closed, h.seen, h.roots⟩, hg⟩
  · intro j b y hj
    have hj' : AMap.get (AMap.insert t.caps i (a, x)) j = some (b, y) := hj
    rw [AMap.get_insert] at hj'
    split at hj'
    · rename_i he
      cases hj'
      exact ⟨by rw [ha, he], hw⟩
    · exact h.caps hj'
  · intro b hb hne
    exact hg.caps _ (h.done hb hne)

/-- The members of a group reached with access at most some link. -/
theorem members_inv (hS : Sound W g) {a : Agent} {links : List Access} (hp : Path W g a links) (hne : a.id ≠ g.id)
    (hm : a.isMembered = true) {h' : Group} (hw : AMap.get W a.id = some h') {best : Access}
    (hb : ∃ links, Path W g a links ∧ ∃ l ∈ links, best ≤ l) (ms : List (Id × List Dlg)) (hms : ∀ e ∈ ms, e ∈ h'.members)
    {t : Trans} (h : TInv W g C P t) :
    TInv W g C P (ms.foldl (member best) t) ∧ Grow W g P t (ms.foldl (member best) t) ∧
      ∀ e ∈ ms, ∀ d ∈ e.2, Known P (ms.foldl (member best) t) d.delegate := by
  have ht := hS.world _ _ hw
  induction ms generalizing t with
  | nil => exact ⟨h, Grow.refl, by simp⟩
  | cons e ms ih =>
    obtain ⟨m, ds⟩ := e
    have hin := hms (m, ds) (by simp)
    have hall : ∀ d ∈ ds, h'.MemberBy m d := fun d hd => mem_members h' ht hin hd
    have hstep : TInv W g C P (member best t (m, ds)) ∧ Grow W g P t (member best t (m, ds)) ∧
        ∀ d ∈ ds, Known P (member best t (m, ds)) d.delegate := by
      obtain ⟨c, hc⟩ := maxByCan_ne (ht.2.1 m ds (AMap.get_of_mem ht.1 hin))
      have hcm := (maxByCan_some hc).1
      have he : member best t (m, ds) =
          ds.foldl (sub c.can best) { t with caps := AMap.insert t.caps m (c.delegate, best) } := by
        unfold member
        simp only [hc]
      rw [he]
      obtain ⟨l2, hl2, l, hl, hbl⟩ := hb
      obtain ⟨j1, j2⟩ := caps_insert_inv (i := m) (a := c.delegate) (x := best) h (ht.2.2 m c (hall c hcm))
        ⟨_, .nested hl2 hne hm hw (hall c hcm), l, by simp [hl], hbl⟩
      obtain ⟨k1, k2, k3⟩ := subs_inv hS c.can best ds j1 (fun d hd =>
        ⟨Or.inr ⟨_, _, _, hw, hall d hd⟩, _, .nested hp hne hm hw (hall d hd)⟩)
      exact ⟨k1, j2.trans k2, k3⟩
    obtain ⟨s1, s2, s3⟩ := hstep
    obtain ⟨i1, i2, i3⟩ := ih (fun e he => hms e (by simp [he])) s1
    refine ⟨i1, s2.trans i2, ?_⟩
    intro e he d hd
    rcases List.mem_cons.1 he with rfl | he
    · exact (s3 d hd).grow i2
    · exact i3 e he d hd

theorem min_le_left' (a b : Access) : Access.min a b ≤ a := by
  unfold Access.min
  split
  · rename_i h; exact Nat.le_of_lt h
  · exact Access.le_refl' _

theorem turn_inv (hS : Sound W g) {held : List Id} {agent : Agent} {access parent : Access}
    {rest : List (Agent × Access × Access)} {t t' : Trans} (h : TInv W g P P t)
    (hx : t.explore = (agent, access, parent) :: rest)
    (hok : turn W held g.id { t with explore := rest } agent access parent = .ok t') : TInv W g (agent :: P) (agent :: P) t' := by
  obtain ⟨hweak, links, hpath⟩ := h.stk (a := agent) (x := access) (y := parent) (by rw [hx]; simp)
  have hKn : ∀ {t2 : Trans}, (∀ e ∈ rest, e ∈ t2.explore) → ∀ {a}, Known P t a → Known (agent :: P) t2 a := by
    intro t2 hr a hk
    rcases hk with hk | ⟨x, y, hk⟩
    · exact Or.inl (List.mem_cons_of_mem _ hk)
    · rw [hx] at hk
      rcases List.mem_cons.1 hk with hk | hk
      · cases hk; exact Or.inl (by simp)
      · exact Or.inr ⟨x, y, hr _ hk⟩
  unfold turn at hok
  by_cases hself : agent.id = g.id
  · simp only [hself, if_true, Except.ok.injEq] at hok
    subst hok
    refine ⟨?_, h.caps, ?_, ?_, ?_, ?_, fun hm => hKn (fun e he => he) (h.roots hm)⟩
    · intro a x y hm; exact h.stk (by rw [hx]; exact List.mem_cons_of_mem _ hm)
    · intro a ha hne
      rcases List.mem_cons.1 ha with rfl | ha
      · exact absurd hself hne
      · exact h.done ha hne
    · intro a ha
      rcases List.mem_cons.1 ha with rfl | ha
      · exact ⟨_, hpath⟩
      · exact h.popped ha
    · intro a h' m d ha hne hm hw hd
      rcases List.mem_cons.1 ha with rfl | ha
      · exact absurd hself hne
      · exact hKn (fun e he => he) (h.closed ha hne hm hw hd)
    · intro s c hs
      obtain ⟨d, h1, h2, h3⟩ := h.seen hs
      exact ⟨d, h1, h2, hKn (fun e he => he) h3⟩
  · simp only [hself, if_false] at hok
    -- the state after popping `agent` and recording its capability
    generalize hbest : best { t with explore := rest } agent access = best at hok
    simp only [Trans.best] at hbest
    have hb : ∃ links, Path W g agent links ∧ ∃ l ∈ links, best ≤ l := by
      cases hc : AMap.get t.caps agent.id with
      | none =>
        rw [hc] at hbest
        simp only at hbest
        rw [← hbest]; exact hweak
      | some p =>
        obtain ⟨b, existing⟩ := p
        rw [hc] at hbest
        simp only at hbest
        rw [← hbest]
        obtain ⟨h1, l2, h2, l, h3, h4⟩ := h.caps hc
        have hba := path_agree hS h2 hpath h1
        subst hba
        unfold Access.max
        split
        · exact ⟨l2, h2, l, h3, h4⟩
        · exact hweak
    have hmin : Weak W g agent (Access.min access parent) := by
      obtain ⟨l2, h2, l, h3, h4⟩ := hweak
      exact ⟨l2, h2, l, h3, Access.le_trans' (min_le_left' _ _) h4⟩
    let t1 : Trans := ⟨rest, t.seen, AMap.insert t.caps agent.id (agent, Access.min access parent)⟩
    have hcaps1 : ∀ i, AMap.get t.caps i ≠ none → AMap.get t1.caps i ≠ none := by
      intro i hi
      show AMap.get (AMap.insert _ _ _) i ≠ none
      rw [AMap.get_insert]
      split
      · simp
      · exact hi
    -- everything but closure for `agent`
    have hpre : ∀ {t2 : Trans}, Grow W g (agent :: P) t1 t2 →
        (∀ {a x y}, (a, x, y) ∈ t2.explore → Weak W g a x ∧ ∃ links, Path W g a (x :: links)) →
        (∀ {i a x}, AMap.get t2.caps i = some (a, x) → a.id = i ∧ Weak W g a x) →
        (∀ {s c}, (s, c) ∈ t2.seen → ∃ d, Around W g d ∧ d.sig = s ∧ Known (agent :: P) t2 d.delegate) →
        (∀ h' m d, agent.isMembered = true → AMap.get W agent.id = some h' → h'.MemberBy m d → Known (agent :: P) t2 d.delegate) →
        TInv W g (agent :: P) (agent :: P) t2 := by
      intro t2 hg h1 h2 h3 h4
      refine ⟨h1, h2, ?_, ?_, ?_, h3, fun hm => hKn (fun e he => hg.stk e he) (h.roots hm)⟩
      · intro a ha hne
        rcases List.mem_cons.1 ha with rfl | ha
        · refine hg.caps _ ?_
          show AMap.get (AMap.insert _ _ _) _ ≠ none
          rw [AMap.get_insert_self]; simp
        · exact hg.caps _ (hcaps1 _ (h.done ha hne))
      · intro a ha
        rcases List.mem_cons.1 ha with rfl | ha
        · exact ⟨_, hpath⟩
        · exact h.popped ha
      · intro a h' m d ha hne hm hw hd
        rcases List.mem_cons.1 ha with rfl | ha
        · exact h4 h' m d hm hw hd
        · exact hKn (fun e he => hg.stk e he) (h.closed ha hne hm hw hd)
    have hstk1 : ∀ {a x y}, (a, x, y) ∈ t1.explore → Weak W g a x ∧ ∃ links, Path W g a (x :: links) := by
      intro a x y hm; exact h.stk (by rw [hx]; exact List.mem_cons_of_mem _ hm)
    have hc1 : ∀ {i a x}, AMap.get t1.caps i = some (a, x) → a.id = i ∧ Weak W g a x := by
      intro i a x hi
      have hi' : AMap.get (AMap.insert t.caps agent.id (agent, Access.min access parent)) i = some (a, x) := hi
      rw [AMap.get_insert] at hi'
      split at hi'
      · rename_i he
        cases hi'
        exact ⟨he.symm, hmin⟩
      · exact h.caps hi'
    have hs1 : ∀ {s c}, (s, c) ∈ t1.seen → ∃ d, Around W g d ∧ d.sig = s ∧ Known (agent :: P) t1 d.delegate := by
      intro s c hs
      obtain ⟨d, h1, h2, h3⟩ := h.seen hs
      exact ⟨d, h1, h2, hKn (fun e he => he) h3⟩
    have hgr : Grow W g (agent :: P) t1 t1 := Grow.refl
    cases hmem : agent.isMembered with
    | false =>
      simp only [hmem, Bool.false_eq_true, if_false, Except.ok.injEq] at hok
      subst hok
      exact hpre hgr hstk1 hc1 hs1 (fun h' m d hm => by rw [hmem] at hm; cases hm)
    | true =>
      simp only [hmem, if_true] at hok
      by_cases hheld : agent.id ∈ held
      · simp [hheld] at hok
      · simp only [hheld, if_false] at hok
        cases hw : AMap.get W agent.id with
        | none =>
          simp only [hw, Except.ok.injEq] at hok
          subst hok
          exact hpre hgr hstk1 hc1 hs1 (fun h' m d _ hw' => by rw [hw] at hw'; cases hw')
        | some h' =>
          simp only [hw, Except.ok.injEq] at hok
          -- run the member loop with an invariant that does not yet demand closure for `agent`
          have hbase : TInv W g P (agent :: P) t1 := by
            refine ⟨hstk1, hc1, ?_, ?_, ?_, hs1, fun hm => hKn (fun e he => he) (h.roots hm)⟩
            · intro a ha hne
              rcases List.mem_cons.1 ha with rfl | ha
              · show AMap.get (AMap.insert _ _ _) _ ≠ none
                rw [AMap.get_insert_self]; simp
              · exact hcaps1 _ (h.done ha hne)
            · intro a ha
              rcases List.mem_cons.1 ha with rfl | ha
              · exact ⟨_, hpath⟩
              · exact h.popped ha
            · intro a h2 m d ha hne hm hw2 hd
              exact hKn (fun e he => he) (h.closed ha hne hm hw2 hd)
          obtain ⟨m1, m2, m3⟩ := members_inv hS hpath hself hmem hw hb h'.members (fun _ he => he) hbase
          have hok' : h'.members.foldl (member best) t1 = t' := hok
          rw [hok'] at m1 m2 m3
          refine hpre m2 m1.stk m1.caps m1.seen ?_
          intro h2 m d _ hw2 hd
          rw [hw] at hw2
          cases hw2
          obtain ⟨ds, h1, h2⟩ := hd
          exact m3 (m, ds) (AMap.mem_of_get h1) d h2

/-- The initial stack: entries for direct members only, and one for each of them. -/
theorem start_spec (ms : List (Id × List Dlg)) (t : Trans) :
    (ms.foldl startStep t).caps = t.caps ∧
    (∀ e ∈ t.explore, e ∈ (ms.foldl startStep t).explore) ∧
    (∀ e ∈ (ms.foldl startStep t).explore, e ∈ t.explore ∨ ∃ m ∈ ms, ∃ c, maxByCan m.2 = some c ∧ e = (c.delegate, c.can, .admin)) ∧
    (∀ m ∈ ms, ∀ c, maxByCan m.2 = some c → (c.delegate, c.can, .admin) ∈ (ms.foldl startStep t).explore) ∧
    (∀ p ∈ (ms.foldl startStep t).seen, p ∈ t.seen ∨ ∃ m ∈ ms, ∃ c, maxByCan m.2 = some c ∧ p = (c.sig, .admin)) ∧
    (ms.foldl startStep t).explore.length ≤ t.explore.length + ms.length := by
  induction ms generalizing t with
  | nil => simp
  | cons m ms ih =>
    rw [List.foldl_cons]
    obtain ⟨h1, h2, h3, h4, h5, h6⟩ := ih (startStep t m)
    cases hc : maxByCan m.2 with
    | none =>
      have he : startStep t m = t := by simp [startStep, hc]
      rw [he] at h1 h2 h3 h4 h5 h6 ⊢
      refine ⟨h1, h2, ?_, ?_, ?_, by simp only [List.length_cons]; omega⟩
      · intro e hm
        rcases h3 e hm with h | ⟨x, hx, r⟩
        · exact Or.inl h
        · exact Or.inr ⟨x, by simp [hx], r⟩
      · intro x hx c hxc
        rcases List.mem_cons.1 hx with rfl | hx
        · rw [hc] at hxc; cases hxc
        · exact h4 x hx c hxc
      · intro e hm
        rcases h5 e hm with h | ⟨x, hx, r⟩
        · exact Or.inl h
        · exact Or.inr ⟨x, by simp [hx], r⟩
    | some c0 =>
      have he : startStep t m =
          { t with seen := (c0.sig, .admin) :: t.seen, explore := (c0.delegate, c0.can, .admin) :: t.explore } := by
        simp [startStep, hc]
      rw [he] at h1 h2 h3 h4 h5 h6 ⊢
      refine ⟨h1, fun e hm => h2 e (List.mem_cons_of_mem _ hm), ?_, ?_, ?_, ?_⟩
      · intro e hm
        rcases h3 e hm with h | ⟨x, hx, r⟩
        · rcases List.mem_cons.1 h with h | h
          · exact Or.inr ⟨m, by simp, c0, hc, h⟩
          · exact Or.inl h
        · exact Or.inr ⟨x, by simp [hx], r⟩
      · intro x hx c hxc
        rcases List.mem_cons.1 hx with rfl | hx
        · rw [hc] at hxc; cases hxc
          exact h2 _ (by simp)
        · exact h4 x hx c hxc
      · intro e hm
        rcases h5 e hm with h | ⟨x, hx, r⟩
        · rcases List.mem_cons.1 h with h | h
          · exact Or.inr ⟨m, by simp, c0, hc, h⟩
          · exact Or.inl h
        · exact Or.inr ⟨x, by simp [hx], r⟩
      · simp only [List.length_cons] at h6 ⊢; omega

theorem start_inv (hS : Sound W g) : TInv W g [] [] (start g) := by
  obtain ⟨h1, -, h3, h4, h5, -⟩ := start_spec g.members ⟨[], [], []⟩
  have hmem : ∀ m ∈ g.members, ∀ c, maxByCan m.2 = some c → g.MemberBy m.1 c := by
    intro m hm c hc
    exact mem_members g hS.self hm (maxByCan_some hc).1
  refine ⟨?_, ?_, by simp, by simp, by simp, ?_, ?_⟩
  · intro a x y hin
    rcases h3 _ hin with h | ⟨m, hm, c, hc, he⟩
    · simp at h
    · cases he
      have := Path.direct (W := W) (hmem m hm c hc)
      exact ⟨⟨_, this, c.can, by simp, Access.le_refl' _⟩, [], this⟩
  · intro i a x hi
    have : (start g).caps = [] := h1
    rw [this] at hi
    cases hi
  · intro s c hs
    rcases h5 _ hs with h | ⟨m, hm, c, hc, he⟩
    · simp at h
    · cases he
      exact ⟨c, Or.inl ⟨_, hmem m hm c hc⟩, rfl, Or.inr ⟨_, _, h4 m hm c hc⟩⟩
  · intro m d hd
    obtain ⟨ds, hds, hin⟩ := hd
    have hm := AMap.mem_of_get hds
    obtain ⟨c, hc⟩ := maxByCan_ne (hS.self.2.1 m ds hds)
    have hk := h4 (m, ds) hm c hc
    have hcm := hmem (m, ds) hm c hc
    have : c.delegate = d.delegate := hS.kind c d (Or.inl ⟨_, hcm⟩) (Or.inl ⟨_, ⟨ds, hds, hin⟩⟩)
      (by rw [hS.self.2.2 m c hcm, hS.self.2.2 m d ⟨ds, hds, hin⟩])
    rw [← this]
    exact Or.inr ⟨_, _, hk⟩

/-! ## The fuel suffices -/

/-- Keys of `seen` for the members of one group. -/
def gpairs (h : Group) : List (Nat × Access) :=
  h.members.flatMap (fun m => match maxByCan m.2 with
    | none => []
    | some c => m.2.map (fun d => (d.sig, c.can)))

/-- All the keys the loop can add to `seen`. -/
def pairs (W : World) : List (Nat × Access) := W.flatMap (fun p => gpairs p.2)

theorem pairs_length (W : World) : (pairs W).length ≤ World.size W := by
  unfold pairs World.size
  rw [List.length_flatMap]
  induction W with
  | nil => simp
  | cons p W ih =>
    simp only [List.map_cons, List.sum_cons]
    refine Nat.add_le_add ?_ ih
    unfold gpairs
    rw [List.length_flatMap]
    generalize p.2.members = ms
    induction ms with
    | nil => simp
    | cons m ms ih2 =>
      simp only [List.map_cons, List.sum_cons]
      refine Nat.add_le_add ?_ ih2
      split
      · simp
      · simp

/-- Turns still to come are bounded by this number. -/
def pot (W : World) (t : Trans) : Nat := t.explore.length + ((pairs W).filter (fun p => decide (p ∉ t.seen))).length

theorem filter_seen (l : List (Nat × Access)) (S : List (Nat × Access)) {x : Nat × Access} (hx : x ∈ l) (hs : x ∉ S) :
    (l.filter (fun p => decide (p ∉ x :: S))).length + 1 ≤ (l.filter (fun p => decide (p ∉ S))).length := by
  have he : l.filter (fun p => decide (p ∉ x :: S)) = (l.filter (fun p => decide (p ∉ S))).filter (fun p => decide (p ≠ x)) := by
    rw [List.filter_filter]
    congr 1
    funext p
    simp only [List.mem_cons, not_or, Bool.decide_and, ne_eq]
  rw [he]
  have : (List.filter (fun p => decide (p ≠ x)) (l.filter (fun p => decide (p ∉ S)))).length <
      (l.filter (fun p => decide (p ∉ S))).length := by
    rw [List.length_filter_lt_length_iff_exists]
    exact ⟨x, by simp [hx, hs], by simp⟩
  omega

theorem sub_pot (can best : Access) (t : Trans) (d : Dlg) (h : (d.sig, can) ∈ pairs W) : pot W (sub can best t d) ≤ pot W t := by
  unfold sub
  split
  · exact Nat.le_refl _
  · rename_i hs
    have := filter_seen (pairs W) t.seen h hs
    simp only [pot, List.length_cons]
    omega

theorem subs_pot (can best : Access) (ds : List Dlg) (t : Trans) (h : ∀ d ∈ ds, (d.sig, can) ∈ pairs W) :
    pot W (ds.foldl (sub can best) t) ≤ pot W t := by
  induction ds generalizing t with
  | nil => exact Nat.le_refl _
  | cons d ds ih =>
    exact Nat.le_trans (ih _ (fun e he => h e (by simp [he]))) (sub_pot can best t d (h d (by simp)))

theorem members_pot (best : Access) {h' : Group} {i : Id} (hw : (i, h') ∈ W) (ms : List (Id × List Dlg))
    (hms : ∀ e ∈ ms, e ∈ h'.members) (t : Trans) : pot W (ms.foldl (member best) t) ≤ pot W t := by
  induction ms generalizing t with
  | nil => exact Nat.le_refl _
  | cons m ms ih =>
    refine Nat.le_trans (ih (fun e he => hms e (by simp [he])) _) ?_
    unfold member
    cases hc : maxByCan m.2 with
    | none => exact Nat.le_refl _
    | some c =>
      refine subs_pot c.can best m.2 _ ?_
      intro d hd
      refine List.mem_flatMap.2 ⟨(i, h'), hw, List.mem_flatMap.2 ⟨m, hms m (by simp), ?_⟩⟩
      rw [hc]
      exact List.mem_map.2 ⟨d, hd, rfl⟩

theorem turn_pot {held : List Id} {self : Id} {agent : Agent} {access parent : Access} {t t' : Trans}
    (hok : turn W held self t agent access parent = .ok t') : pot W t' ≤ pot W t := by
  unfold turn at hok
  by_cases h1 : agent.id = self
  · simp only [h1, if_true, Except.ok.injEq] at hok
    subst hok; exact Nat.le_refl _
  · simp only [h1, if_false] at hok
    cases h2 : agent.isMembered with
    | false =>
      simp only [h2, Bool.false_eq_true, if_false, Except.ok.injEq] at hok
      subst hok; exact Nat.le_refl _
    | true =>
      simp only [h2, if_true] at hok
      by_cases h3 : agent.id ∈ held
      · simp [h3] at hok
      · simp only [h3, if_false] at hok
        cases hw : AMap.get W agent.id with
        | none =>
          simp only [hw, Except.ok.injEq] at hok
          subst hok; exact Nat.le_refl _
        | some h' =>
          simp only [hw, Except.ok.injEq] at hok
          subst hok
          exact members_pot _ (AMap.mem_of_get hw) h'.members (fun _ he => he) _

theorem run_inv (hS : Sound W g) {held : List Id} (n : Nat) {P : List Agent} {t t' : Trans} (h : TInv W g P P t)
    (hp : pot W t < n) (hok : run W held g.id n t = .ok t') : ∃ P', TInv W g P' P' t' ∧ t'.explore = [] := by
  induction n generalizing P t with
  | zero => omega
  | succ n ih =>
    unfold run at hok
    cases hx : t.explore with
    | nil =>
      simp only [hx, Except.ok.injEq] at hok
      subst hok
      exact ⟨P, h, hx⟩
    | cons e rest =>
      obtain ⟨agent, access, parent⟩ := e
      simp only [hx, bind, Except.bind] at hok
      cases ht : turn W held g.id { t with explore := rest } agent access parent with
      | error e => simp [ht] at hok
      | ok t1 =>
        simp only [ht] at hok
        refine ih (turn_inv hS h hx ht) ?_ hok
        have h1 := turn_pot ht
        have h2 : pot W { t with explore := rest } + 1 = pot W t := by
          simp only [pot, hx, List.length_cons]; omega
        omega

theorem pot_start : pot W (start g) < g.members.length + World.size W + 1 := by
  obtain ⟨-, -, -, -, -, h6⟩ := start_spec g.members ⟨[], [], []⟩
  have h1 := pairs_length W
  have h2 : ((pairs W).filter (fun p => decide (p ∉ (start g).seen))).length ≤ (pairs W).length := List.length_filter_le _ _
  have h3 : (start g).explore.length ≤ g.members.length := by simpa [start] using h6
  unfold pot
  omega

/-- If the caller holds no lock but that of the group itself, every turn succeeds. -/
theorem run_ok (n : Nat) (self : Id) (t : Trans) : ∃ t', run W [self] self n t = .ok t' := by
  induction n generalizing t with
  | zero => exact ⟨t, rfl⟩
  | succ n ih =>
    unfold run
    cases hx : t.explore with
    | nil => exact ⟨t, rfl⟩
    | cons e rest =>
      obtain ⟨agent, access, parent⟩ := e
      simp only [bind, Except.bind]
      have ht : ∃ t1, turn W [self] self { t with explore := rest } agent access parent = .ok t1 := by
        unfold turn
        by_cases h1 : agent.id = self
        · exact ⟨_, if_pos h1⟩
        · simp only [h1, if_false, List.mem_singleton]
          cases agent.isMembered with
          | false => exact ⟨_, rfl⟩
          | true =>
            simp only [if_true]
            cases AMap.get W agent.id with
            | none => exact ⟨_, rfl⟩
            | some h' => exact ⟨_, rfl⟩
      obtain ⟨t1, ht⟩ := ht
      rw [ht]
      exact ih t1

end Trans

open Verif.Group.Trans in
/-- The result of `transitive_members`: entries are agents on a path, and every agent on a path has one. -/
theorem transitive_spec {W : World} {g : Group} (hS : Sound W g) {held : List Id} {caps : AMap Id (Agent × Access)}
    (hok : transitiveMembers W held g = .ok caps) :
    (∀ i a x, AMap.get caps i = some (a, x) → a.id = i ∧ Weak W g a x) ∧
      ∀ a links, Path W g a links → a.id ≠ g.id → AMap.get caps a.id ≠ none := by
  unfold transitiveMembers at hok
  simp only [bind, Except.bind, pure, Except.pure] at hok
  cases hr : Trans.run W held g.id (g.members.length + World.size W + 1) (Trans.start g) with
  | error e => simp [hr] at hok
  | ok t =>
    simp only [hr, Except.ok.injEq] at hok
    subst hok
    obtain ⟨P, hi, he⟩ := run_inv hS _ (start_inv hS) pot_start hr
    refine ⟨fun i a x h => hi.caps h, ?_⟩
    have hk : ∀ {a}, Known P t a → a ∈ P := by
      intro a h
      rcases h with h | ⟨x, y, h⟩
      · exact h
      · rw [he] at h; cases h
    have hall : ∀ a links, Path W g a links → a ∈ P := by
      intro a links hp
      induction hp with
      | direct hm => exact hk (hi.roots hm)
      | nested _ hne hm hw hd ih => exact hk (hi.closed ih hne hm hw hd)
    intro a links hp hne
    exact hi.done (hall a links hp) hne

/-- Called with no lock held but the group's own, `transitive_members` returns. -/
theorem transitive_ok (W : World) (g : Group) : ∃ caps, transitiveMembers W [g.id] g = .ok caps := by
  obtain ⟨t, ht⟩ := Trans.run_ok (W := W) (g.members.length + World.size W + 1) g.id (Trans.start g)
  exact ⟨t.caps, by simp [transitiveMembers, ht, bind, Except.bind, pure, Except.pure]⟩

end Verif.Group
