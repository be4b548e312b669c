import Verif.Cgka.GraphInv

/-! # Helper lemmas: an operation on top of all heads comes last, in an epoch of its own -/

namespace Verif.Cgka

open Relation

/-- The edges after adding `x` on top of the sinks `S`. -/
structure OnTop (E E' : Nat → Nat → Prop) (S : List Nat) (x : Nat) : Prop where
  edge : ∀ p y, E' p y ↔ E p y ∨ (y = x ∧ p ∈ S)
  new : ¬ Touched E x
  sinks : ∀ z, Touched E z → ((∀ y, ¬ E z y) ↔ z ∈ S)
  touched : ∀ z ∈ S, Touched E z
  ne : S ≠ []
  reach : ∀ z, Touched E z → ∃ s ∈ S, z = s ∨ TransGen E z s

theorem OnTop.touch {E E' : Nat → Nat → Prop} {S : List Nat} {x : Nat} (h : OnTop E E' S x) (z : Nat) :
    Touched E' z ↔ Touched E z ∨ z = x := by
  constructor
  · rintro (⟨p, hp⟩ | ⟨y, hy⟩)
    · rcases (h.edge _ _).1 hp with h1 | ⟨h1, _⟩
      · exact Or.inl (Or.inl ⟨p, h1⟩)
      · exact Or.inr h1
    · rcases (h.edge _ _).1 hy with h1 | ⟨_, h1⟩
      · exact Or.inl (Or.inr ⟨y, h1⟩)
      · exact Or.inl (h.touched z h1)
  · rintro ((⟨p, hp⟩ | ⟨y, hy⟩) | rfl)
    · exact Or.inl ⟨p, (h.edge _ _).2 (Or.inl hp)⟩
    · exact Or.inr ⟨y, (h.edge _ _).2 (Or.inl hy)⟩
    · obtain ⟨s, hs⟩ := List.exists_mem_of_ne_nil _ h.ne
      exact Or.inl ⟨s, (h.edge _ _).2 (Or.inr ⟨rfl, hs⟩)⟩

theorem roundLoop_append {E E' : Nat → Nat → Prop} {S : List Nat} {x : Nat} (ht : OnTop E E' S x)
    {rank : Nat → Nat} (hr : ∀ p y, E' p y → rank p < rank y)
    (f1 f2 : Nat) (r1 r2 a b : Graph.Rounds) (h1 : RInv E r1) (h2 : RInv E' r2) (ho : r1.out = r2.out)
    (hc : r1.cur = r2.cur) (e1 : Graph.roundLoop f1 r1 = .ok a) (e2 : Graph.roundLoop f2 r2 = .ok b) :
    b.out = a.out ++ (if a.cur.isEmpty then [] else [a.cur]) ++ [[x]] ∧ b.cur = [] := by
  have hrE : ∀ p y, E p y → rank p < rank y := fun p y h => hr p y ((ht.edge _ _).2 (Or.inl h))
  induction f1 generalizing f2 r1 r2 with
  | zero => simp [Graph.roundLoop] at e1
  | succ f1 ih =>
    cases f2 with
    | zero => simp [Graph.roundLoop] at e2
    | succ f2 =>
      have hxP : x ∉ r1.out.flatten ++ r1.cur := fun hx => ht.new (h1.sub x hx)
      have hxP2 : x ∉ r2.out.flatten ++ r2.cur := by rw [← ho, ← hc]; exact hxP
      have he2 : ¬ r2.topo.isEmpty = true := by
        rw [h2.topo.isEmpty]
        intro hh
        exact hh x ⟨(ht.touch x).2 (Or.inr rfl), hxP2⟩
      unfold Graph.roundLoop at e1 e2
      rw [if_neg he2] at e2
      obtain ⟨b1, n2, y1, y2, y3⟩ := round_ok hr h2 (fun hh => he2 (h2.topo.isEmpty.2 hh))
      by_cases he : r1.topo.isEmpty = true
      · rw [if_pos he] at e1
        cases e1
        have hall : ∀ z, Touched E z → z ∈ r2.out.flatten ++ r2.cur := by
          intro z hz
          by_contra hcon
          rw [← ho, ← hc] at hcon
          exact (h1.topo.isEmpty.1 he) z ⟨hz, hcon⟩
        have hn : n2 = [x] := by
          have hp : n2.Perm [x] := by
            rw [List.perm_ext_iff_of_nodup y2.nd (by simp)]
            intro z
            rw [y2.mem, ht.touch]
            simp only [List.mem_singleton]
            constructor
            · rintro ⟨⟨hz | rfl, hzP⟩, _⟩
              · exact absurd (hall z hz) hzP
              · rfl
            · rintro rfl
              refine ⟨⟨Or.inr rfl, hxP2⟩, ?_⟩
              intro p hp
              rcases (ht.edge _ _).1 hp with hp | ⟨_, hp⟩
              · exact absurd (Or.inl ⟨p, hp⟩) ht.new
              · exact hall p (ht.touched p hp)
          exact List.perm_singleton.1 hp
        subst hn
        have hheads : ∀ z, z ∈ b1.epochHeads → z = x := by
          intro z hz
          rw [y2.inv.eh, y2.flat] at hz
          obtain ⟨hz1, hz2⟩ := hz
          by_contra hzx
          have hzt : Touched E z := by
            have : z ∈ r2.out.flatten ++ r2.cur := by simpa [hzx] using hz1
            rw [← ho, ← hc] at this
            exact h1.sub z this
          rcases hz2 with hz2 | ⟨y, hy1, hy2⟩
          · have : z ∈ S := (ht.sinks z hzt).1 (fun y hy => hz2 y ((ht.edge _ _).2 (Or.inl hy)))
            exact hz2 x ((ht.edge _ _).2 (Or.inr ⟨rfl, this⟩))
          · apply hy2
            rcases (ht.edge _ _).1 hy1 with hy1 | ⟨rfl, _⟩
            · exact List.mem_append_left _ (hall y (Or.inl ⟨z, hy1⟩))
            · simp
        have hlen : b1.epochHeads.length ≤ 1 := by
          have := length_le_of_nodup_subset (l := b1.epochHeads) (l' := [x]) y2.inv.ehn (by
            intro z hz; simpa using hheads z hz)
          simpa using this
        rcases y2.ends with ⟨_, q2, q3⟩ | ⟨q1, _⟩
        · rw [y1] at e2
          cases f2 with
          | zero => simp [Graph.roundLoop, bind, Except.bind] at e2
          | succ f2 =>
            have hemp : b1.topo.isEmpty = true := by
              rw [y2.inv.topo.isEmpty]
              rintro z ⟨hz, hzP⟩
              apply hzP
              rw [y2.flat]
              rcases (ht.touch z).1 hz with hz | rfl
              · exact List.mem_append_left _ (hall z hz)
              · simp
            simp only [bind, Except.bind] at e2
            unfold Graph.roundLoop at e2
            rw [if_pos hemp] at e2
            cases e2
            rw [q2, q3, ho, hc]
            simp
        · exact absurd hlen q1
      · rw [if_neg he] at e1
        have hne1 : ¬ ∀ z, ¬ (Touched E z ∧ z ∉ r1.out.flatten ++ r1.cur) := fun hh => he (h1.topo.isEmpty.2 hh)
        obtain ⟨a1, n1, x1, x2, x3⟩ := round_ok hrE h1 hne1
        have hn : n1 = n2 := by
          have hp : n1.Perm n2 := by
            rw [List.perm_ext_iff_of_nodup x2.nd y2.nd]
            intro z
            rw [x2.mem, y2.mem, ho, hc, ht.touch]
            constructor
            · rintro ⟨⟨hz1, hz2⟩, hz3⟩
              refine ⟨⟨Or.inl hz1, hz2⟩, ?_⟩
              intro p hp
              rcases (ht.edge _ _).1 hp with hp | ⟨rfl, _⟩
              · exact hz3 p hp
              · exact absurd hz1 ht.new
            · rintro ⟨⟨hz1 | rfl, hz2⟩, hz3⟩
              · exact ⟨⟨hz1, hz2⟩, fun p hp => hz3 p ((ht.edge _ _).2 (Or.inl hp))⟩
              · exfalso
                push Not at hne1
                obtain ⟨w, hw1, hw2⟩ := hne1
                obtain ⟨s, hs, hws⟩ := ht.reach w hw1
                have hsP : s ∈ r2.out.flatten ++ r2.cur := hz3 s ((ht.edge _ _).2 (Or.inr ⟨rfl, hs⟩))
                rw [← ho, ← hc] at hsP
                rcases hws with rfl | hws
                · exact hw2 hsP
                · exact hw2 (down_trans h1.down hws hsP)
          exact hp.eq_of_pairwise (fun a b _ _ => Nat.le_antisymm) x2.srt y2.srt
        subst hn
        have hfl : a1.out.flatten ++ a1.cur = b1.out.flatten ++ b1.cur := by
          rw [x2.flat, y2.flat, ho, hc]
        have hxB : x ∉ b1.out.flatten ++ b1.cur := by
          rw [← hfl]; exact fun hx => ht.new (x2.inv.sub x hx)
        have hlen : a1.epochHeads.length = b1.epochHeads.length := by
          apply List.Perm.length_eq
          rw [List.perm_ext_iff_of_nodup x2.inv.ehn y2.inv.ehn]
          intro z
          rw [x2.inv.eh, y2.inv.eh, ← hfl]
          refine and_congr_right fun hz => ?_
          have hzt := x2.inv.sub z hz
          constructor
          · rintro (hz1 | ⟨y, hy1, hy2⟩)
            · exact Or.inr ⟨x, (ht.edge _ _).2 (Or.inr ⟨rfl, (ht.sinks z hzt).1 hz1⟩), by rw [hfl]; exact hxB⟩
            · exact Or.inr ⟨y, (ht.edge _ _).2 (Or.inl hy1), hy2⟩
          · rintro (hz1 | ⟨y, hy1, hy2⟩)
            · exact Or.inl (fun y hy => hz1 y ((ht.edge _ _).2 (Or.inl hy)))
            · rcases (ht.edge _ _).1 hy1 with hy1 | ⟨rfl, hs⟩
              · exact Or.inr ⟨y, hy1, hy2⟩
              · exact Or.inl ((ht.sinks z hzt).2 hs)
        have hoc : a1.out = b1.out ∧ a1.cur = b1.cur := by
          rcases x2.ends with ⟨p1, p2, p3⟩ | ⟨p1, p2, p3⟩ <;> rcases y2.ends with ⟨q1, q2, q3⟩ | ⟨q1, q2, q3⟩
          · rw [p2, p3, q2, q3, ho, hc]; exact ⟨rfl, rfl⟩
          · exact absurd (hlen ▸ p1) q1
          · exact absurd (hlen ▸ q1) p1
          · rw [p2, p3, q2, q3, ho, hc]; exact ⟨rfl, rfl⟩
        rw [x1] at e1
        rw [y1] at e2
        exact ih f2 a1 b1 x2.inv y2.inv hoc.1 hoc.2 e1 e2

/-- Every ancestor of the heads is a head or has a path to one. -/
theorem anc_reach {g : Graph} {heads : List Nat} {x : Nat} (h : g.Anc heads x) :
    ∃ s ∈ heads, x = s ∨ TransGen (g.Edge heads) x s := by
  induction h with
  | head hx => exact ⟨_, hx, Or.inl rfl⟩
  | step ha hp ih =>
    obtain ⟨s, hs, h1⟩ := ih
    refine ⟨s, hs, Or.inr ?_⟩
    rcases h1 with rfl | h1
    · exact .single ⟨ha, hp⟩
    · exact .head ⟨ha, hp⟩ h1

theorem touched_anc {g : Graph} {heads : List Nat} {x : Nat} (h : Touched (g.Edge heads) x) : g.Anc heads x := by
  rcases h with ⟨p, hp⟩ | ⟨y, hy⟩
  · exact hp.1
  · exact .step hy.1 hy.2

/-- When `x` is added on top of exactly the heads of a graph in which every head has a predecessor (or which
has one operation), the new order is the old one followed by `[x]`. -/
theorem sortHashes_append {g g' : Graph} {heads : List Nat} {x : Nat} (hc : g.Closed) (hc' : g'.Closed)
    (ha' : g'.Acyclic) (hn : heads.Nodup) (hh : ∀ h ∈ heads, AMap.get g.preds h ≠ none)
    (hsink : ∀ h ∈ heads, ∀ y, ¬ g.Pred h y) (hne : heads ≠ [])
    (hx : AMap.get g.preds x = none) (hx' : AMap.get g'.preds x ≠ none)
    (hP : ∀ p y, g'.Pred p y ↔ g.Pred p y ∨ (y = x ∧ p ∈ heads))
    (hroot : (∀ h ∈ heads, ∃ p, g.Pred p h) ∨ ∃ r, heads = [r])
    {a b : List (List Nat)} (e1 : g.sortHashes heads = .ok a) (e2 : g'.sortHashes [x] = .ok b) : b = a ++ [[x]] := by
  obtain ⟨rank, hr⟩ := ha'
  have hxnot : x ∉ heads := fun hc => hh x hc hx
  have hxnp : ∀ p, ¬ g.Pred p x := by
    rintro p ⟨ps, h1, _⟩; rw [hx] at h1; simp at h1
  have hxns : ∀ y, ¬ g.Pred x y := by
    rintro y ⟨ps, h1, h2⟩; exact hc y ps h1 x h2 hx
  -- ancestors
  have hanc : ∀ z, g'.Anc [x] z ↔ z = x ∨ g.Anc heads z := by
    intro z
    constructor
    · intro h
      induction h with
      | head h => exact Or.inl (by simpa using h)
      | step h1 h2 ih =>
        rcases (hP _ _).1 h2 with h3 | ⟨_, h3⟩
        · rcases ih with rfl | ih
          · exact absurd h3 (hxnp _)
          · exact Or.inr (.step ih h3)
        · exact Or.inr (.head h3)
    · rintro (rfl | h)
      · exact .head (by simp)
      · induction h with
        | head h => exact .step (.head (List.mem_singleton.2 rfl)) ((hP _ _).2 (Or.inr ⟨rfl, h⟩))
        | step h1 h2 ih => exact .step ih ((hP _ _).2 (Or.inl h2))
  have hedge : ∀ p y, g'.Edge [x] p y ↔ g.Edge heads p y ∨ (y = x ∧ p ∈ heads) := by
    intro p y
    unfold Graph.Edge
    rw [hanc, hP]
    constructor
    · rintro ⟨rfl | h1, h2 | ⟨h2, h3⟩⟩
      · exact absurd h2 (hxnp _)
      · exact Or.inr ⟨rfl, h3⟩
      · exact Or.inl ⟨h1, h2⟩
      · exact Or.inr ⟨h2, h3⟩
    · rintro (⟨h1, h2⟩ | ⟨rfl, h2⟩)
      · exact ⟨Or.inr h1, Or.inl h2⟩
      · exact ⟨Or.inl rfl, Or.inr ⟨rfl, h2⟩⟩
  have hnew : ¬ Touched (g.Edge heads) x := by
    rintro (⟨p, hp⟩ | ⟨y, hy⟩)
    · exact hxnp p hp.2
    · exact hxns y hy.2
  obtain ⟨s, h1, h2, h3, h4⟩ := scan_ok hc hn hh
  obtain ⟨s', h1', h2', h3', h4'⟩ := scan_ok hc' (heads := [x]) (by simp) (by simpa using hx')
  have hi' := rinv_start h2' h3' h4'
  have hne' : ¬ s'.topo.isEmpty = true := by
    rw [h2'.isEmpty]
    intro hcon
    obtain ⟨q, hq⟩ := List.exists_mem_of_ne_nil _ hne
    exact hcon x (Or.inl ⟨q, (hedge _ _).2 (Or.inr ⟨rfl, hq⟩)⟩)
  unfold Graph.sortHashes at e1 e2
  simp only [h1, bind, Except.bind] at e1
  simp only [h1', bind, Except.bind] at e2
  rw [if_neg hne'] at e2
  have hrank := edge_rank hr [x]
  by_cases he : s.topo.isEmpty = true
  · -- nothing but a single operation
    rw [if_pos he] at e1
    have hno : ∀ p y, ¬ g.Edge heads p y := fun p y hy => (h2.isEmpty.1 he) y (Or.inl ⟨p, hy⟩)
    obtain ⟨r, rfl⟩ : ∃ r, heads = [r] := by
      rcases hroot with hroot | hroot
      · obtain ⟨q, hq⟩ := List.exists_mem_of_ne_nil _ hne
        obtain ⟨p, hp⟩ := hroot q hq
        exact absurd ⟨.head hq, hp⟩ (hno p q)
      · exact hroot
    simp only [List.isEmpty_cons, Bool.false_eq_true, if_false, pure, Except.pure, Except.ok.injEq] at e1
    subst e1
    -- run the epoch loop twice
    have hE' : ∀ p y, g'.Edge [x] p y ↔ y = x ∧ p = r := by
      intro p y
      rw [hedge]
      simp [hno]
    have hxr : x ≠ r := by simpa using hxnot
    have ht' : ∀ z, Touched (g'.Edge [x]) z ↔ z = r ∨ z = x := by
      intro z
      unfold Touched
      simp only [hE']
      constructor
      · rintro (⟨p, hz, _⟩ | ⟨y, _, hz⟩)
        · exact Or.inr hz
        · exact Or.inl hz
      · rintro (hz | hz)
        · exact Or.inr ⟨x, rfl, hz⟩
        · exact Or.inl ⟨r, hz, rfl⟩
    obtain ⟨r1, n1, y1, y2, y3⟩ := round_ok hrank hi' (fun hh => hne' (h2'.isEmpty.2 (fun z hz => hh z ⟨hz, by simp⟩)))
    have hn1 : n1 = [r] := by
      apply List.perm_singleton.1
      rw [List.perm_ext_iff_of_nodup y2.nd (by simp)]
      intro z
      rw [y2.mem, ht']
      simp only [hE', List.flatten_nil, List.nil_append, List.not_mem_nil, not_false_iff, and_true, List.mem_singleton]
      constructor
      · rintro ⟨h5 | h5, h6⟩
        · exact h5
        · exact absurd ⟨h5, rfl⟩ (h6 r)
      · rintro rfl
        exact ⟨Or.inl rfl, fun p hp => hxr hp.1.symm⟩
    subst hn1
    have hlen1 : r1.epochHeads.length ≤ 1 := by
      have := length_le_of_nodup_subset (l := r1.epochHeads) (l' := [r]) y2.inv.ehn (by
        intro z hz
        rw [y2.inv.eh, y2.flat] at hz
        simpa using hz.1)
      simpa using this
    have ho1 : r1.cur = [] ∧ r1.out = [[r]] := by
      rcases y2.ends with ⟨_, q2, q3⟩ | ⟨q1, _⟩
      · exact ⟨q2, by simpa using q3⟩
      · exact absurd hlen1 q1
    have hne1 : ¬ ∀ z, ¬ (Touched (g'.Edge [x]) z ∧ z ∉ r1.out.flatten ++ r1.cur) := by
      intro hh
      apply hh x
      refine ⟨(ht' x).2 (Or.inr rfl), ?_⟩
      rw [ho1.1, ho1.2]
      simpa using hxr
    obtain ⟨r2, n2, z1, z2, z3⟩ := round_ok hrank y2.inv hne1
    have hn2 : n2 = [x] := by
      apply List.perm_singleton.1
      rw [List.perm_ext_iff_of_nodup z2.nd (by simp)]
      intro z
      rw [z2.mem, ht', ho1.1, ho1.2]
      simp only [hE', List.flatten_cons, List.flatten_nil, List.append_nil, List.mem_singleton]
      constructor
      · rintro ⟨⟨h5 | h5, h6⟩, _⟩
        · exact absurd h5 h6
        · exact h5
      · rintro rfl
        exact ⟨⟨Or.inr rfl, hxr⟩, fun p hp => hp.2⟩
    subst hn2
    have hlen2 : r2.epochHeads.length ≤ 1 := by
      have := length_le_of_nodup_subset (l := r2.epochHeads) (l' := [x]) z2.inv.ehn (by
        intro z hz
        rw [z2.inv.eh, z2.flat, ho1.1, ho1.2] at hz
        obtain ⟨hz1, hz2⟩ := hz
        simp only [List.mem_singleton]
        by_contra hzx
        have hzr : z = r := by simpa [hzx] using hz1
        rcases hz2 with hz2 | ⟨y, hy1, hy2⟩
        · exact hz2 x ((hE' _ _).2 ⟨rfl, hzr⟩)
        · apply hy2
          rw [((hE' _ _).1 hy1).1]
          simp)
      simpa using this
    have ho2 : r2.cur = [] ∧ r2.out = [[r], [x]] := by
      rcases z2.ends with ⟨_, q2, q3⟩ | ⟨q1, _⟩
      · refine ⟨q2, ?_⟩
        rw [q3, ho1.1, ho1.2]; simp
      · exact absurd hlen2 q1
    have hemp : r2.topo.isEmpty = true := by
      rw [z2.inv.topo.isEmpty]
      rintro z ⟨hz, hzP⟩
      apply hzP
      rw [ho2.1, ho2.2]
      simpa using (ht' z).1 hz
    have hnemp1 : ¬ r1.topo.isEmpty = true := fun hh => hne1 (y2.inv.topo.isEmpty.1 hh)
    have hd1 := y2.shrink hi' (by simp)
    have hd2 := z2.shrink y2.inv (by simp)
    have hloop : Graph.roundLoop (s'.topo.deps.length + 1)
        { topo := s'.topo, succs := s'.succs, epochHeads := [], cur := [], out := [] } = .ok r2 := by
      obtain ⟨m, hm⟩ : ∃ m, s'.topo.deps.length = m + 2 := ⟨s'.topo.deps.length - 2, by
        simp only at hd1; omega⟩
      rw [hm]
      unfold Graph.roundLoop
      rw [if_neg hne', y1]
      simp only [bind, Except.bind]
      unfold Graph.roundLoop
      rw [if_neg hnemp1, z1]
      simp only [bind, Except.bind]
      unfold Graph.roundLoop
      rw [if_pos hemp]
    rw [hloop] at e2
    simp only [pure, Except.pure, Except.ok.injEq] at e2
    rw [← e2, ho2.1, ho2.2]
    rfl
  · rw [if_neg he] at e1
    have hex : ∃ z, Touched (g.Edge heads) z := by
      by_contra hcon
      push Not at hcon
      exact he (h2.isEmpty.2 hcon)
    have hhp : ∀ h ∈ heads, ∃ p, g.Pred p h := by
      rcases hroot with hroot | ⟨r, rfl⟩
      · exact hroot
      · intro h hmem
        obtain rfl := List.mem_singleton.1 hmem
        obtain ⟨z, hz⟩ := hex
        obtain ⟨p, y, hy⟩ : ∃ p y, g.Edge [h] p y := by
          rcases hz with ⟨p, hp⟩ | ⟨y, hy⟩
          · exact ⟨p, z, hp⟩
          · exact ⟨z, y, hy⟩
        obtain ⟨s0, hs0, h5⟩ := anc_reach hy.1
        obtain rfl := List.mem_singleton.1 hs0
        rcases h5 with rfl | h5
        · exact ⟨p, hy.2⟩
        · rcases TransGen.tail'_iff.1 h5 with ⟨q, _, hq⟩
          exact ⟨q, hq.2⟩
    have ht : OnTop (g.Edge heads) (g'.Edge [x]) heads x := by
      refine ⟨hedge, hnew, ?_, ?_, hne, ?_⟩
      · intro z hz
        constructor
        · intro hs
          obtain ⟨s0, hs0, h5⟩ := anc_reach (touched_anc hz)
          rcases h5 with rfl | h5
          · exact hs0
          · rcases TransGen.head'_iff.1 h5 with ⟨q, hq, _⟩
            exact absurd hq (hs q)
        · intro hz y hy
          exact hsink z hz y hy.2
      · intro z hz
        obtain ⟨p, hp⟩ := hhp z hz
        exact Or.inl ⟨p, .head hz, hp⟩
      · intro z hz
        exact anc_reach (touched_anc hz)
    have hi := rinv_start h2 h3 h4
    cases hl : Graph.roundLoop (s.topo.deps.length + 1)
        { topo := s.topo, succs := s.succs, epochHeads := [], cur := [], out := [] } with
    | error e => rw [hl] at e1; simp at e1
    | ok r =>
      cases hl' : Graph.roundLoop (s'.topo.deps.length + 1)
          { topo := s'.topo, succs := s'.succs, epochHeads := [], cur := [], out := [] } with
      | error e => rw [hl'] at e2; simp at e2
      | ok r' =>
        obtain ⟨x1, x2⟩ := roundLoop_append ht hrank _ _ _ _ _ _ hi hi' rfl rfl hl hl'
        rw [hl] at e1
        rw [hl'] at e2
        simp only [pure, Except.pure, Except.ok.injEq] at e1 e2
        rw [← e1, ← e2, x1, x2]
        cases r.cur <;> simp

end Verif.Cgka
