import Verif.Group.TransLemmas

/-! # Helper lemmas: access levels with one level of nesting -/

namespace Verif.Group.Trans

variable {W : World} {g : Group}

/-- An access level no larger than any link of some path to the agent. -/
def Good (W : World) (g : Group) (a : Agent) (x : Access) : Prop := ∃ links, Path W g a links ∧ ∀ l ∈ links, x ≤ l

/-- A group other than `g` whose members the loop will look at. -/
def Exp (W : World) (g : Group) (a : Agent) : Prop :=
  a.isMembered = true ∧ a.id ≠ g.id ∧ ∃ h, AMap.get W a.id = some h

/-- Groups among the stack, by id. -/
def OnStack (t : Trans) (i : Id) : Prop := ∃ a x y, (a, x, y) ∈ t.explore ∧ a.id = i

structure FInv (W : World) (g : Group) (t : Trans) : Prop where
  stk : ∀ {a x y}, (a, x, y) ∈ t.explore → Good W g a (Access.min x y)
  caps : ∀ {i a x}, AMap.get t.caps i = some (a, x) → i ≠ g.id → a.id = i ∧ (Good W g a x ∨ OnStack t i)
  top : ∀ {a x y}, (a, x, y) ∈ t.explore → Exp W g a →
    (∃ m d, g.MemberBy m d ∧ d.delegate = a ∧ d.can = x) ∧ AMap.get t.caps a.id = none
  fresh : ∀ {a x y h m d c}, (a, x, y) ∈ t.explore → Exp W g a → AMap.get W a.id = some h → h.MemberBy m d →
    (d.sig, c) ∉ t.seen
  once : t.explore.Pairwise (fun e e' => Exp W g e.1 → e.1 ≠ e'.1)

theorem good_path {a : Agent} {x : Access} (h : Good W g a x) : ∃ links, Path W g a links := ⟨h.choose, h.choose_spec.1⟩

theorem good_agree (hS : Sound W g) {a b : Agent} {x y : Access} (ha : Good W g a x) (hb : Good W g b y)
    (h : a.id = b.id) : a = b := by
  obtain ⟨_, h1⟩ := good_path ha
  obtain ⟨_, h2⟩ := good_path hb
  exact path_agree hS h1 h2 h

theorem min_le_right' (a b : Access) : Access.min a b ≤ b := by
  unfold Access.min
  split
  · exact Access.le_refl' _
  · rename_i h; exact Nat.le_of_not_lt h

/-- Invariant inside the loop over the members of the group `h` of the agent `a` with access `x`. -/
structure MInv (W : World) (g : Group) (a : Agent) (h : Group) (x : Access) (t : Trans) : Prop extends FInv W g t where
  gone : ∀ {y z}, (a, y, z) ∉ t.explore
  push : ∀ {m d c}, h.MemberBy m d → (d.sig, c) ∈ t.seen → ∃ y z, (d.delegate, y, z) ∈ t.explore

theorem not_exp (hF : Flat W g) {m : Id} {d : Dlg} (hd : g.MemberBy m d) (hne : d.delegate.id ≠ g.id) {h : Group}
    (hw : AMap.get W d.delegate.id = some h) {m' : Id} {d' : Dlg} (hd' : h.MemberBy m' d') : ¬ Exp W g d'.delegate := by
  rintro ⟨h1, h2, h3, h4⟩
  rw [hF m d h m' d' hd hne hw hd' h1 h2] at h4
  cases h4

/-- The agent `a` is a direct member with access `x`, and its group is `h`. -/
structure Nest (W : World) (g : Group) (a : Agent) (h : Group) (x : Access) : Prop where
  mem : ∃ m d, g.MemberBy m d ∧ d.delegate = a ∧ d.can = x
  exp : Exp W g a
  get : AMap.get W a.id = some h

theorem Nest.not_exp {a : Agent} {h : Group} {x : Access} (n : Nest W g a h x) (hF : Flat W g) {m : Id} {d : Dlg}
    (hd : h.MemberBy m d) : ¬ Exp W g d.delegate := by
  obtain ⟨m', d', h1, h2, h3⟩ := n.mem
  subst h2
  exact Trans.not_exp hF h1 n.exp.2.1 n.get hd

theorem Nest.good {a : Agent} {h : Group} {x : Access} (n : Nest W g a h x) {m : Id} {d : Dlg}
    (hd : h.MemberBy m d) : Good W g d.delegate (Access.min d.can x) := by
  obtain ⟨m', d', h1, h2, h3⟩ := n.mem
  subst h2 h3
  refine ⟨[d.can, d'.can], .nested (.direct h1) n.exp.2.1 n.exp.1 n.get hd, ?_⟩
  intro l hl
  rcases List.mem_cons.1 hl with rfl | hl
  · exact min_le_left' _ _
  · rcases List.mem_cons.1 hl with rfl | hl
    · exact min_le_right' _ _
    · cases hl

theorem sub_flat (hS : Sound W g) (hF : Flat W g) (hO : OwnMembers W g) {a : Agent} {h : Group} {x : Access}
    (n : Nest W g a h x) {t : Trans} (hi : MInv W g a h x t) (can : Access) {m : Id} {d : Dlg} (hd : h.MemberBy m d) :
    MInv W g a h x (sub can x t d) ∧ (∀ e ∈ t.explore, e ∈ (sub can x t d).explore) ∧ (sub can x t d).caps = t.caps ∧
      ∃ y z, (d.delegate, y, z) ∈ (sub can x t d).explore := by
  unfold sub
  split
  · rename_i hs
    exact ⟨hi, fun _ he => he, rfl, hi.push hd hs⟩
  · rename_i hs
    have hne : ¬ Exp W g d.delegate := n.not_exp hF hd
    have had : Around W g d := Or.inr ⟨_, _, _, n.get, hd⟩
    refine ⟨⟨⟨?_, ?_, ?_, ?_, ?_⟩, ?_, ?_⟩, fun _ he => List.mem_cons_of_mem _ he, rfl, d.can, x, by simp⟩
    · intro b y z hm
      rcases List.mem_cons.1 hm with hm | hm
      · cases hm; exact n.good hd
      · exact hi.stk hm
    · intro i b y hc hne
      obtain ⟨h1, h2⟩ := hi.caps hc hne
      refine ⟨h1, h2.imp id ?_⟩
      rintro ⟨b', y', z', hm, he⟩
      exact ⟨b', y', z', List.mem_cons_of_mem _ hm, he⟩
    · intro b y z hm he
      rcases List.mem_cons.1 hm with hm | hm
      · cases hm; exact absurd he hne
      · exact hi.top hm he
    · intro b y z h' m' d' c hm he hw hd' hs'
      rcases List.mem_cons.1 hm with hm2 | hm2
      · cases hm2; exact absurd he hne
      · rcases List.mem_cons.1 hs' with hs' | hs'
        · have hsig : d'.sig = d.sig := by injection hs'
          have hdd : d' = d := hS.sig _ _ (Or.inr ⟨_, _, _, hw, hd'⟩) had hsig
          subst hdd
          have e1 := hO.2 _ _ _ _ hw hd'
          have e2 := hO.2 _ _ _ _ n.get hd
          have : b = a := by
            obtain ⟨⟨m1, d1, p1, p2, -⟩, -⟩ := hi.top hm2 he
            obtain ⟨m2, d2, q1, q2, -⟩ := n.mem
            subst p2 q2
            exact hS.kind _ _ (Or.inl ⟨_, p1⟩) (Or.inl ⟨_, q1⟩) (e1.symm.trans e2)
          subst this
          exact hi.gone hm2
        · exact hi.fresh hm2 he hw hd' hs'
    · refine List.pairwise_cons.2 ⟨?_, hi.once⟩
      intro e _ he
      exact absurd he hne
    · intro y z hm
      rcases List.mem_cons.1 hm with hm | hm
      · have : a = d.delegate := by injection hm
        rw [← this] at hne
        exact hne n.exp
      · exact hi.gone hm
    · intro m' d' c hd' hs'
      rcases List.mem_cons.1 hs' with hs' | hs'
      · have : d'.sig = d.sig := by injection hs'
        have hdd := hS.sig _ _ (Or.inr ⟨_, _, _, n.get, hd'⟩) had this
        subst hdd
        exact ⟨_, _, List.mem_cons_self⟩
      · obtain ⟨y, z, hm⟩ := hi.push hd' hs'
        exact ⟨y, z, List.mem_cons_of_mem _ hm⟩

theorem subs_flat (hS : Sound W g) (hF : Flat W g) (hO : OwnMembers W g) {a : Agent} {h : Group} {x : Access}
    (n : Nest W g a h x) (can : Access) {m : Id} (ds : List Dlg) (hds : ∀ d ∈ ds, h.MemberBy m d) {t : Trans}
    (hi : MInv W g a h x t) :
    MInv W g a h x (ds.foldl (sub can x) t) ∧ (∀ e ∈ t.explore, e ∈ (ds.foldl (sub can x) t).explore) ∧
      (ds.foldl (sub can x) t).caps = t.caps := by
  induction ds generalizing t with
  | nil => exact ⟨hi, fun _ he => he, rfl⟩
  | cons d ds ih =>
    obtain ⟨h1, h2, h3, -⟩ := sub_flat hS hF hO n hi can (hds d (by simp))
    obtain ⟨i1, i2, i3⟩ := ih (fun e he => hds e (by simp [he])) h1
    exact ⟨i1, fun e he => i2 e (h2 e he), i3.trans h3⟩

theorem member_eq {best : Access} {t : Trans} {m : Id} {ds : List Dlg} {c : Dlg} (hc : maxByCan ds = some c) :
    member best t (m, ds) = ds.foldl (sub c.can best) { t with caps := AMap.insert t.caps m (c.delegate, best) } := by
  simp only [member, hc]

/-- `sub` ignores the capabilities. -/
theorem subs_caps (can best : Access) (ds : List Dlg) (t : Trans) (caps : AMap Id (Agent × Access)) :
    ds.foldl (sub can best) { t with caps := caps } = { ds.foldl (sub can best) t with caps := caps } := by
  induction ds generalizing t with
  | nil => rfl
  | cons d ds ih =>
    rw [List.foldl_cons, List.foldl_cons, ← ih]
    congr 1
    unfold sub
    split <;> rfl

theorem member_flat (hS : Sound W g) (hF : Flat W g) (hO : OwnMembers W g) {a : Agent} {h : Group} {x : Access}
    (n : Nest W g a h x) {m : Id} {ds : List Dlg} (hin : (m, ds) ∈ h.members) {t : Trans} (hi : MInv W g a h x t) :
    MInv W g a h x (member x t (m, ds)) := by
  have ht := hS.world _ _ n.get
  have hall : ∀ d ∈ ds, h.MemberBy m d := fun d hd => mem_members h ht hin hd
  obtain ⟨c, hc⟩ := maxByCan_ne (ht.2.1 m ds (AMap.get_of_mem ht.1 hin))
  have hcm := (maxByCan_some hc).1
  rw [member_eq hc, subs_caps]
  obtain ⟨s1, s2, s3⟩ := subs_flat hS hF hO n c.can ds hall hi
  -- the delegation `c` is on the stack afterwards
  have hon : OnStack (ds.foldl (sub c.can x) t) m := by
    obtain ⟨l1, l2, rfl⟩ := List.append_of_mem hcm
    rw [List.foldl_append, List.foldl_cons]
    obtain ⟨a1, -, -⟩ := subs_flat hS hF hO n c.can l1 (fun d hd => hall d (by simp [hd])) hi
    obtain ⟨b1, -, -, y, z, b2⟩ := sub_flat hS hF hO n a1 c.can (hall c (by simp))
    obtain ⟨-, c2, -⟩ := subs_flat hS hF hO n c.can l2 (fun d hd => hall d (by simp [hd])) b1
    exact ⟨_, _, _, c2 _ b2, ht.2.2 m c (hall c hcm)⟩
  generalize ds.foldl (sub c.can x) t = t1 at s1 s2 s3 hon
  refine ⟨⟨s1.stk, ?_, ?_, s1.fresh, s1.once⟩, s1.gone, s1.push⟩
  · intro i b y hb hne
    have hb' : AMap.get (AMap.insert t.caps m (c.delegate, x)) i = some (b, y) := hb
    rw [AMap.get_insert] at hb'
    split at hb'
    · rename_i he
      cases hb'
      refine ⟨by rw [ht.2.2 m c (hall c hcm), he], Or.inr ?_⟩
      rw [he]; exact hon
    · rw [← s3] at hb'
      exact s1.caps hb' hne
  · intro b y z hm he
    obtain ⟨h1, h2⟩ := s1.top hm he
    refine ⟨h1, ?_⟩
    show AMap.get (AMap.insert t.caps m (c.delegate, x)) b.id = none
    rw [AMap.get_insert]
    split
    · rename_i hmb
      exfalso
      have : b = c.delegate := good_agree hS (s1.stk hm) (n.good (hall c hcm))
        (by rw [ht.2.2 m c (hall c hcm), hmb])
      rw [this] at he
      exact n.not_exp hF (hall c hcm) he
    · rw [← s3]; exact h2

theorem members_flat (hS : Sound W g) (hF : Flat W g) (hO : OwnMembers W g) {a : Agent} {h : Group} {x : Access}
    (n : Nest W g a h x) (ms : List (Id × List Dlg)) (hms : ∀ e ∈ ms, e ∈ h.members) {t : Trans} (hi : MInv W g a h x t) :
    MInv W g a h x (ms.foldl (member x) t) := by
  induction ms generalizing t with
  | nil => exact hi
  | cons e ms ih =>
    obtain ⟨m, ds⟩ := e
    exact ih (fun e he => hms e (by simp [he])) (member_flat hS hF hO n (hms _ (by simp)) hi)

theorem turn_flat (hS : Sound W g) (hF : Flat W g) (hO : OwnMembers W g) {held : List Id} {agent : Agent}
    {access parent : Access} {rest : List (Agent × Access × Access)} {t t' : Trans} (hi : FInv W g t)
    (hx : t.explore = (agent, access, parent) :: rest)
    (hok : turn W held g.id { t with explore := rest } agent access parent = .ok t') : FInv W g t' := by
  have hin : ∀ e ∈ rest, e ∈ t.explore := fun e he => by rw [hx]; exact List.mem_cons_of_mem _ he
  have hhd : (agent, access, parent) ∈ t.explore := by rw [hx]; simp
  have hgood := hi.stk hhd
  have honce := hi.once
  rw [hx] at honce
  obtain ⟨hone, hrest⟩ := List.pairwise_cons.1 honce
  have hOn : ∀ i, i ≠ agent.id → OnStack t i → ∃ a x y, (a, x, y) ∈ rest ∧ a.id = i := by
    rintro i hne ⟨b, y, z, hm, he⟩
    rw [hx] at hm
    rcases List.mem_cons.1 hm with hm | hm
    · cases hm; exact absurd he.symm hne
    · exact ⟨b, y, z, hm, he⟩
  unfold turn at hok
  by_cases hself : agent.id = g.id
  · simp only [hself, if_true, Except.ok.injEq] at hok
    subst hok
    refine ⟨fun hm => hi.stk (hin _ hm), ?_, fun hm => hi.top (hin _ hm), fun hm => hi.fresh (hin _ hm), hrest⟩
    intro i a x hc hne
    obtain ⟨h1, h2⟩ := hi.caps hc hne
    exact ⟨h1, h2.imp id (hOn i (by rw [hself]; exact hne))⟩
  · simp only [hself, if_false] at hok
    have h1 : FInv W g ⟨rest, t.seen, AMap.insert t.caps agent.id (agent, Access.min access parent)⟩ := by
      refine ⟨fun hm => hi.stk (hin _ hm), ?_, ?_, fun hm => hi.fresh (hin _ hm), hrest⟩
      · intro i a x hc hne
        have hc' : AMap.get (AMap.insert t.caps agent.id (agent, Access.min access parent)) i = some (a, x) := hc
        rw [AMap.get_insert] at hc'
        split at hc'
        · rename_i he
          cases hc'
          exact ⟨he.symm, Or.inl hgood⟩
        · rename_i he
          obtain ⟨h1, h2⟩ := hi.caps hc' hne
          exact ⟨h1, h2.imp id (hOn i he)⟩
      · intro a x y hm he
        obtain ⟨p1, p2⟩ := hi.top (hin _ hm) he
        refine ⟨p1, ?_⟩
        show AMap.get (AMap.insert t.caps agent.id (agent, Access.min access parent)) a.id = none
        rw [AMap.get_insert]
        split
        · rename_i hid
          have : agent = a := good_agree hS hgood (hi.stk (hin _ hm)) hid.symm
          subst this
          exact absurd rfl (hone (agent, x, y) hm he)
        · exact p2
    cases hmem : agent.isMembered with
    | false =>
      simp only [hmem, Bool.false_eq_true, if_false, Except.ok.injEq] at hok
      subst hok; exact h1
    | true =>
      simp only [hmem, if_true] at hok
      by_cases hheld : agent.id ∈ held
      · simp [hheld] at hok
      · simp only [hheld, if_false] at hok
        cases hw : AMap.get W agent.id with
        | none =>
          simp only [hw, Except.ok.injEq] at hok
          subst hok; exact h1
        | some h' =>
          simp only [hw, Except.ok.injEq] at hok
          have hexp : Exp W g agent := ⟨hmem, hself, h', hw⟩
          obtain ⟨t1, t2⟩ := hi.top hhd hexp
          have hb : best { t with explore := rest } agent access = access := by
            simp only [best, t2]
          rw [hb] at hok
          have n : Nest W g agent h' access := ⟨t1, hexp, hw⟩
          have hm : MInv W g agent h' access
              ⟨rest, t.seen, AMap.insert t.caps agent.id (agent, Access.min access parent)⟩ := by
            refine ⟨h1, ?_, ?_⟩
            · intro y z hm
              exact hone _ hm hexp rfl
            · intro m d c hd hs
              exact absurd hs (hi.fresh hhd hexp hw hd)
          have hok' : h'.members.foldl (member access)
              ⟨rest, t.seen, AMap.insert t.caps agent.id (agent, Access.min access parent)⟩ = t' := hok
          rw [← hok']
          exact (members_flat hS hF hO n h'.members (fun _ he => he) hm).toFInv

theorem start_once (hS : Sound W g) (ms : List (Id × List Dlg)) (hnd : (ms.map Prod.fst).Nodup)
    (hms : ∀ e ∈ ms, e ∈ g.members) (t : Trans)
    (ht : t.explore.Pairwise (fun e e' => e.1 ≠ e'.1)) (hd : ∀ e ∈ t.explore, e.1.id ∉ ms.map Prod.fst) :
    (ms.foldl startStep t).explore.Pairwise (fun e e' => e.1 ≠ e'.1) := by
  induction ms generalizing t with
  | nil => exact ht
  | cons m ms ih =>
    rw [List.foldl_cons]
    rw [List.map_cons, List.nodup_cons] at hnd
    refine ih hnd.2 (fun e he => hms e (by simp [he])) _ ?_ ?_
    · unfold startStep
      cases hc : maxByCan m.2 with
      | none => exact ht
      | some c =>
        refine List.pairwise_cons.2 ⟨?_, ht⟩
        intro e he heq
        have h1 := hd e he
        have h2 := hS.self.2.2 _ _ (mem_members g hS.self (m := m.1) (ds := m.2) (hms m (by simp)) (maxByCan_some hc).1)
        have heq' : c.delegate = e.1 := heq
        rw [← heq', h2] at h1
        simp at h1
    · intro e he
      unfold startStep at he
      cases hc : maxByCan m.2 with
      | none =>
        rw [hc] at he
        intro hm
        exact hd e he (by rw [List.map_cons]; exact List.mem_cons_of_mem _ hm)
      | some c =>
        rw [hc] at he
        rcases List.mem_cons.1 he with he | he
        · subst he
          have h2 := hS.self.2.2 _ _ (mem_members g hS.self (m := m.1) (ds := m.2) (hms m (by simp)) (maxByCan_some hc).1)
          show c.delegate.id ∉ _
          rw [h2]
          exact hnd.1
        · intro hm
          exact hd e he (by rw [List.map_cons]; exact List.mem_cons_of_mem _ hm)

theorem access_le_admin (x : Access) : x ≤ .admin := by cases x <;> decide

theorem min_admin (x : Access) : Access.min x .admin = x := by cases x <;> decide

theorem start_flat (hS : Sound W g) (hO : OwnMembers W g) : FInv W g (start g) := by
  obtain ⟨h1, -, h3, -, h5, -⟩ := start_spec g.members ⟨[], [], []⟩
  have hmem : ∀ m ∈ g.members, ∀ c, maxByCan m.2 = some c → g.MemberBy m.1 c := by
    intro m hm c hc
    exact mem_members g hS.self hm (maxByCan_some hc).1
  have hcaps : (start g).caps = [] := h1
  refine ⟨?_, ?_, ?_, ?_, ?_⟩
  · intro a x y hin
    rcases h3 _ hin with h | ⟨m, hm, c, hc, he⟩
    · simp at h
    · cases he
      refine ⟨_, .direct (hmem m hm c hc), ?_⟩
      intro l hl
      rw [List.mem_singleton] at hl
      subst hl
      exact min_le_left' _ _
  · intro i a x hi
    rw [hcaps] at hi
    cases hi
  · intro a x y hin _
    rcases h3 _ hin with h | ⟨m, hm, c, hc, he⟩
    · simp at h
    · cases he
      exact ⟨⟨_, c, hmem m hm c hc, rfl, rfl⟩, by rw [hcaps]; rfl⟩
  · intro a x y h m d c hin he hw hd hs
    rcases h5 _ hs with h | ⟨m', hm', c', hc', he'⟩
    · simp at h
    · have hsig : d.sig = c'.sig := by injection he'
      have hg := hmem m' hm' c' hc'
      have := hS.sig d c' (Or.inr ⟨_, _, _, hw, hd⟩) (Or.inl ⟨_, hg⟩) hsig
      subst this
      exact he.2.1 ((hO.2 _ _ _ _ hw hd).symm.trans (hO.1 _ _ hg))
  · have hkeys : (g.members.map Prod.fst).Nodup := hS.self.1
    refine List.Pairwise.imp ?_ (start_once hS g.members hkeys (fun _ he => he) ⟨[], [], []⟩ .nil (by simp))
    intro e e' h _
    exact h

theorem run_flat (hS : Sound W g) (hF : Flat W g) (hO : OwnMembers W g) {held : List Id} (n : Nat) {t t' : Trans}
    (h : FInv W g t) (hok : run W held g.id n t = .ok t') : FInv W g t' := by
  induction n generalizing t with
  | zero =>
    simp only [run, Except.ok.injEq] at hok
    subst hok; exact h
  | succ n ih =>
    unfold run at hok
    cases hx : t.explore with
    | nil =>
      simp only [hx, Except.ok.injEq] at hok
      subst hok; exact h
    | cons e rest =>
      obtain ⟨agent, access, parent⟩ := e
      simp only [hx, bind, Except.bind] at hok
      cases ht : turn W held g.id { t with explore := rest } agent access parent with
      | error e => simp [ht] at hok
      | ok t1 =>
        simp only [ht] at hok
        exact ih (turn_flat hS hF hO h hx ht) hok

/-- With one level of nesting the reported access is at most every link of some path. -/
theorem transitive_flat (hS : Sound W g) (hF : Flat W g) (hO : OwnMembers W g) {held : List Id}
    {caps : AMap Id (Agent × Access)} (hok : transitiveMembers W held g = .ok caps) {i : Id} {a : Agent} {x : Access}
    (hc : AMap.get caps i = some (a, x)) (hne : i ≠ g.id) : a.id = i ∧ Good W g a x := by
  unfold transitiveMembers at hok
  simp only [bind, Except.bind, pure, Except.pure] at hok
  cases hr : Trans.run W held g.id (g.members.length + World.size W + 1) (Trans.start g) with
  | error e => simp [hr] at hok
  | ok t =>
    simp only [hr, Except.ok.injEq] at hok
    subst hok
    obtain ⟨P, -, he⟩ := run_inv hS _ (start_inv hS) pot_start hr
    obtain ⟨h1, h2⟩ := (run_flat hS hF hO _ (start_flat hS hO) hr).caps hc hne
    refine ⟨h1, h2.resolve_right ?_⟩
    rintro ⟨b, y, z, hm, -⟩
    rw [he] at hm
    cases hm

end Verif.Group.Trans
