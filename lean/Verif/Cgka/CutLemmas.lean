import Verif.Cgka.Append
import Verif.Cgka.Rederive

/-! # Helper lemmas: the replay order up to an operation that is concurrent with nothing -/

namespace Verif.Cgka

open Verif.BeeKem Relation

/-- `E` is what leads to `R` in `E'`, everything is before or after `R`, and nothing leads past `R`. -/
structure Cut (E E' : Nat → Nat → Prop) (R : Nat) : Prop where
  edge : ∀ p y, E p y ↔ E' p y ∧ (y = R ∨ TransGen E' y R)
  total : ∀ z, Touched E' z → (z = R ∨ TransGen E' z R) ∨ TransGen E' R z
  tidy : ∀ p y, TransGen E' p R → E' p y → y = R ∨ TransGen E' y R
  some : ∃ p, E' p R

theorem Cut.lo {E E' : Nat → Nat → Prop} {R : Nat} (h : Cut E E' R) {z : Nat} (hz : Touched E z) :
    z = R ∨ TransGen E' z R := by
  rcases hz with ⟨p, hp⟩ | ⟨y, hy⟩
  · exact ((h.edge _ _).1 hp).2
  · obtain ⟨h1, h2⟩ := (h.edge _ _).1 hy
    rcases h2 with rfl | h2
    · exact .inr (.single h1)
    · exact .inr (.head h1 h2)

theorem Cut.touch {E E' : Nat → Nat → Prop} {R : Nat} (h : Cut E E' R) (z : Nat) :
    Touched E z ↔ z = R ∨ TransGen E' z R := by
  refine ⟨h.lo, ?_⟩
  rintro (rfl | hz)
  · obtain ⟨p, hp⟩ := h.some
    exact .inl ⟨p, (h.edge _ _).2 ⟨hp, .inl rfl⟩⟩
  · rcases TransGen.head'_iff.1 hz with ⟨y, h1, h2⟩
    refine .inr ⟨y, (h.edge _ _).2 ⟨h1, ?_⟩⟩
    rcases Relation.reflTransGen_iff_eq_or_transGen.1 h2 with h3 | h3
    · exact .inl h3.symm
    · exact .inr h3

theorem Cut.trans {E E' : Nat → Nat → Prop} {R : Nat} (h : Cut E E' R) {a b : Nat} (hab : TransGen E' a b)
    (hb : b = R ∨ TransGen E' b R) : TransGen E a b := by
  induction hab with
  | single h1 => exact .single ((h.edge _ _).2 ⟨h1, hb⟩)
  | tail h1 h2 ih =>
    refine .tail (ih (.inr ?_)) ((h.edge _ _).2 ⟨h2, hb⟩)
    rcases hb with rfl | hb
    · exact .single h2
    · exact .head h2 hb

theorem roundLoop_out {f : Nat} {r b : Graph.Rounds} (h : Graph.roundLoop f r = .ok b) : ∃ es, b.out = r.out ++ es := by
  induction f generalizing r with
  | zero => simp [Graph.roundLoop] at h
  | succ f ih =>
    unfold Graph.roundLoop at h
    split at h
    · cases h; exact ⟨[], by simp⟩
    · simp only [bind, Except.bind] at h
      split at h
      · simp at h
      · rename_i r1 h1
        obtain ⟨es, he⟩ := ih h
        unfold Graph.round at h1
        dsimp only at h1
        split at h1
        · simp at h1
        · split at h1
          · cases h1
            exact ⟨_, by rw [he]; simp only [List.append_assoc]; rfl⟩
          · cases h1
            exact ⟨_, he⟩

theorem roundLoop_prefix {E E' : Nat → Nat → Prop} {R : Nat} (ht : Cut E E' R)
    {rank : Nat → Nat} (hr : ∀ p y, E' p y → rank p < rank y)
    (f1 f2 : Nat) (r1 r2 a b : Graph.Rounds) (h1 : RInv E r1) (h2 : RInv E' r2) (ho : r1.out = r2.out)
    (hc : r1.cur = r2.cur) (hR : R ∉ r1.out.flatten ++ r1.cur)
    (e1 : Graph.roundLoop f1 r1 = .ok a) (e2 : Graph.roundLoop f2 r2 = .ok b) :
    a.cur = [] ∧ ∃ es, b.out = a.out ++ es := by
  have hrE : ∀ p y, E p y → rank p < rank y := fun p y h => hr p y ((ht.edge _ _).1 h).1
  have hRt : Touched E R := (ht.touch R).2 (.inl rfl)
  have hRt' : Touched E' R := by
    obtain ⟨p, hp⟩ := ht.some
    exact .inl ⟨p, hp⟩
  have hup : ∀ {z}, Touched E z → Touched E' z := by
    rintro z (⟨p, hp⟩ | ⟨y, hy⟩)
    · exact .inl ⟨p, ((ht.edge _ _).1 hp).1⟩
    · exact .inr ⟨y, ((ht.edge _ _).1 hy).1⟩
  induction f1 generalizing f2 r1 r2 with
  | zero => simp [Graph.roundLoop] at e1
  | succ f1 ih =>
    cases f2 with
    | zero => simp [Graph.roundLoop] at e2
    | succ f2 =>
      have hR2 : R ∉ r2.out.flatten ++ r2.cur := by rw [← ho, ← hc]; exact hR
      have he1 : ¬ r1.topo.isEmpty = true := by
        rw [h1.topo.isEmpty]
        intro hh
        exact hh R ⟨hRt, hR⟩
      have he2 : ¬ r2.topo.isEmpty = true := by
        rw [h2.topo.isEmpty]
        intro hh
        exact hh R ⟨hRt', hR2⟩
      unfold Graph.roundLoop at e1 e2
      rw [if_neg he1] at e1
      rw [if_neg he2] at e2
      obtain ⟨a1, n1, x1, x2, x3⟩ := round_ok hrE h1 (fun hh => he1 (h1.topo.isEmpty.2 hh))
      obtain ⟨b1, n2, y1, y2, y3⟩ := round_ok hr h2 (fun hh => he2 (h2.topo.isEmpty.2 hh))
      have hn : n1 = n2 := by
        have hp : n1.Perm n2 := by
          rw [List.perm_ext_iff_of_nodup x2.nd y2.nd]
          intro z
          rw [x2.mem, y2.mem, ho, hc]
          constructor
          · rintro ⟨⟨hz1, hz2⟩, hz3⟩
            exact ⟨⟨hup hz1, hz2⟩, fun p hp => hz3 p ((ht.edge _ _).2 ⟨hp, ht.lo hz1⟩)⟩
          · rintro ⟨⟨hz1, hz2⟩, hz3⟩
            rcases ht.total z hz1 with hz | hz
            · exact ⟨⟨(ht.touch z).2 hz, hz2⟩, fun p hp => hz3 p ((ht.edge _ _).1 hp).1⟩
            · exfalso
              rcases TransGen.tail'_iff.1 hz with ⟨q, hq1, hq2⟩
              have hqP := hz3 q hq2
              rcases Relation.reflTransGen_iff_eq_or_transGen.1 hq1 with hq3 | hq3
              · exact hR2 (hq3 ▸ hqP)
              · exact hR2 (down_trans h2.down hq3 hqP)
        exact hp.eq_of_pairwise (fun a b _ _ => Nat.le_antisymm) x2.srt y2.srt
      subst hn
      have hfl : a1.out.flatten ++ a1.cur = b1.out.flatten ++ b1.cur := by
        rw [x2.flat, y2.flat, ho, hc]
      by_cases hRn : R ∈ n1
      · have hbelow : ∀ z, TransGen E' z R → z ∈ r1.out.flatten ++ r1.cur := by
          intro z hz
          have hz' := ht.trans hz (.inl rfl)
          rcases TransGen.tail'_iff.1 hz' with ⟨q, hq1, hq2⟩
          have hqP := ((x2.mem R).1 hRn).2 q hq2
          rcases Relation.reflTransGen_iff_eq_or_transGen.1 hq1 with hq3 | hq3
          · exact hq3 ▸ hqP
          · exact down_trans h1.down hq3 hqP
        have hn : n1 = [R] := by
          apply List.perm_singleton.1
          rw [List.perm_ext_iff_of_nodup x2.nd (by simp)]
          intro z
          rw [List.mem_singleton]
          constructor
          · intro hz
            obtain ⟨⟨hz1, hz2⟩, _⟩ := (x2.mem z).1 hz
            rcases ht.lo hz1 with h | h
            · exact h
            · exact absurd (hbelow z h) hz2
          · rintro rfl; exact hRn
        subst hn
        have hla : a1.epochHeads.length ≤ 1 := by
          have := length_le_of_nodup_subset (l := a1.epochHeads) (l' := [R]) x2.inv.ehn (by
            intro z hz
            rw [List.mem_singleton]
            by_contra hzR
            rw [x2.inv.eh, x2.flat] at hz
            obtain ⟨hz1, hz2⟩ := hz
            have hzP : z ∈ r1.out.flatten ++ r1.cur := by simpa [hzR] using hz1
            rcases ht.lo (h1.sub z hzP) with h | h
            · exact hzR h
            · rcases hz2 with hz2 | ⟨y, hy1, hy2⟩
              · rcases TransGen.head'_iff.1 (ht.trans h (.inl rfl)) with ⟨y, hy, _⟩
                exact hz2 y hy
              · rcases ((ht.edge _ _).1 hy1).2 with rfl | h3
                · simp at hy2
                · exact hy2 (List.mem_append_left _ (hbelow y h3)))
          simpa using this
        have hlb : b1.epochHeads.length ≤ 1 := by
          have := length_le_of_nodup_subset (l := b1.epochHeads) (l' := [R]) y2.inv.ehn (by
            intro z hz
            rw [List.mem_singleton]
            by_contra hzR
            rw [y2.inv.eh, y2.flat, ← ho, ← hc] at hz
            obtain ⟨hz1, hz2⟩ := hz
            have hzP : z ∈ r1.out.flatten ++ r1.cur := by simpa [hzR] using hz1
            rcases ht.lo (h1.sub z hzP) with h | h
            · exact hzR h
            · rcases hz2 with hz2 | ⟨y, hy1, hy2⟩
              · rcases TransGen.head'_iff.1 h with ⟨y, hy, _⟩
                exact hz2 y hy
              · rcases ht.tidy _ _ h hy1 with rfl | h3
                · simp at hy2
                · exact hy2 (List.mem_append_left _ (hbelow y h3)))
          simpa using this
        rcases x2.ends with ⟨_, p2, p3⟩ | ⟨p1, _⟩
        swap; · exact absurd hla p1
        rcases y2.ends with ⟨_, q2, q3⟩ | ⟨q1, _⟩
        swap; · exact absurd hlb q1
        rw [x1] at e1
        rw [y1] at e2
        simp only [bind, Except.bind] at e1 e2
        obtain ⟨es, hes⟩ := roundLoop_out e2
        have ha : a = a1 := by
          cases f1 with
          | zero => simp [Graph.roundLoop] at e1
          | succ f1 =>
            unfold Graph.roundLoop at e1
            rw [if_pos] at e1
            · cases e1; rfl
            · rw [x2.inv.topo.isEmpty]
              rintro z ⟨hz1, hz2⟩
              apply hz2
              rw [x2.flat]
              rcases ht.lo hz1 with rfl | h
              · simp
              · exact List.mem_append_left _ (hbelow z h)
        subst ha
        refine ⟨p2, es, ?_⟩
        rw [hes, q3, p3, ho, hc]
      · have hRa : R ∉ a1.out.flatten ++ a1.cur := by
          rw [x2.flat, List.mem_append]
          rintro (h | h)
          · exact hR h
          · exact hRn h
        have hlen : a1.epochHeads.length = b1.epochHeads.length := by
          apply List.Perm.length_eq
          rw [List.perm_ext_iff_of_nodup x2.inv.ehn y2.inv.ehn]
          intro z
          rw [x2.inv.eh, y2.inv.eh, ← hfl]
          refine and_congr_right fun hz => ?_
          rcases ht.lo (x2.inv.sub z hz) with h | h
          · exact absurd (h ▸ hz) hRa
          · have hE : ∀ y, E z y ↔ E' z y := fun y =>
              ⟨fun hy => ((ht.edge _ _).1 hy).1, fun hy => (ht.edge _ _).2 ⟨hy, ht.tidy _ _ h hy⟩⟩
            simp only [hE]
        have hoc : a1.out = b1.out ∧ a1.cur = b1.cur := by
          rcases x2.ends with ⟨p1, p2, p3⟩ | ⟨p1, p2, p3⟩ <;> rcases y2.ends with ⟨q1, q2, q3⟩ | ⟨q1, q2, q3⟩
          · rw [p2, p3, q2, q3, ho, hc]; exact ⟨rfl, rfl⟩
          · exact absurd (hlen ▸ p1) q1
          · exact absurd (hlen ▸ q1) p1
          · rw [p2, p3, q2, q3, ho, hc]; exact ⟨rfl, rfl⟩
        rw [x1] at e1
        rw [y1] at e2
        exact ih f2 a1 b1 x2.inv y2.inv hoc.1 hoc.2 hRa e1 e2

theorem sortHashes_prefix {g : Graph} {heads : List Nat} {R : Nat} (hc : g.Closed) (ha : g.Acyclic) (hn : heads.Nodup)
    (hh : ∀ h ∈ heads, AMap.get g.preds h ≠ none) (hR : g.Anc heads R) (hp : ∃ p, g.Pred p R)
    (htot : ∀ z, g.Anc heads z → (z = R ∨ TransGen g.Pred z R) ∨ TransGen g.Pred R z) (ht : TidyG g)
    {a b : List (List Nat)} (e1 : g.sortHashes [R] = .ok a) (e2 : g.sortHashes heads = .ok b) : ∃ es, b = a ++ es := by
  obtain ⟨rank, hr⟩ := ha
  have hRk : AMap.get g.preds R ≠ none := by
    obtain ⟨p, ps, h1, _⟩ := hp
    rw [h1]; simp
  have hancR : ∀ y, g.Anc [R] y ↔ y = R ∨ TransGen g.Pred y R := by
    intro y
    rw [anc_iff]
    simp
  have hlo : ∀ y, (y = R ∨ TransGen g.Pred y R) ↔ (y = R ∨ TransGen (g.Edge heads) y R) := by
    intro y
    exact or_congr_right ⟨fun h => edge_trans h hR, trans_of_edge⟩
  have hup : ∀ {y}, (y = R ∨ TransGen g.Pred y R) → g.Anc heads y := by
    rintro y (rfl | h)
    · exact hR
    · exact anc_down h hR
  have cut : Cut (g.Edge [R]) (g.Edge heads) R := by
    refine ⟨?_, ?_, ?_, ?_⟩
    · intro p y
      unfold Graph.Edge
      rw [hancR]
      constructor
      · rintro ⟨h1, h2⟩
        exact ⟨⟨hup h1, h2⟩, (hlo y).1 h1⟩
      · rintro ⟨⟨_, h2⟩, h3⟩
        exact ⟨(hlo y).2 h3, h2⟩
    · intro z hz
      have hz := touched_anc hz
      rcases htot z hz with h | h
      · exact .inl ((hlo z).1 h)
      · exact .inr (edge_trans h hz)
    · intro p y hpR hpy
      rcases htot y hpy.1 with h | h
      · exact (hlo y).1 h
      · exfalso
        rcases TransGen.tail'_iff.1 h with ⟨q, hq1, hq2⟩
        refine ht y p q hpy.2 hq2 ?_
        exact TransGen.trans_left (trans_of_edge hpR) hq1
    · obtain ⟨p, hp⟩ := hp
      exact ⟨p, hR, hp⟩
  obtain ⟨s, h1, h2, h3, h4⟩ := scan_ok hc (heads := [R]) (by simp) (by simpa using hRk)
  obtain ⟨s', h1', h2', h3', h4'⟩ := scan_ok hc hn hh
  have hi := rinv_start h2 h3 h4
  have hi' := rinv_start h2' h3' h4'
  have hne : ¬ s.topo.isEmpty = true := by
    rw [h2.isEmpty]
    intro hcon
    exact hcon R ((cut.touch R).2 (.inl rfl))
  have hne' : ¬ s'.topo.isEmpty = true := by
    rw [h2'.isEmpty]
    intro hcon
    obtain ⟨p, hp⟩ := cut.some
    exact hcon R (.inl ⟨p, hp⟩)
  unfold Graph.sortHashes at e1 e2
  simp only [h1, bind, Except.bind] at e1
  simp only [h1', bind, Except.bind] at e2
  rw [if_neg hne] at e1
  rw [if_neg hne'] at e2
  have hrank := edge_rank hr heads
  split at e1
  · simp at e1
  · rename_i r hr1
    split at e2
    · simp at e2
    · rename_i r' hr2
      obtain ⟨c1, es, c2⟩ := roundLoop_prefix cut hrank _ _ _ _ _ _ hi hi' rfl rfl (by simp) hr1 hr2
      cases e1
      cases e2
      rw [c1]
      simp only [List.isEmpty_nil, if_true]
      split
      · exact ⟨es, c2⟩
      · exact ⟨es ++ [r'.cur], by rw [c2]; simp⟩

/-- The first operation forms the first epoch. -/
theorem sortHashes_root {g : Graph} {heads : List Nat} {R : Nat} (hc : g.Closed) (ha : g.Acyclic) (hn : heads.Nodup)
    (hh : ∀ h ∈ heads, AMap.get g.preds h ≠ none) (hp : ∀ p, ¬ g.Pred p R)
    (htot : ∀ z, g.Anc heads z → z = R ∨ TransGen g.Pred R z) {b : List (List Nat)} (e2 : g.sortHashes heads = .ok b) :
    ∃ es, b = [R] :: es := by
  obtain ⟨rank, hr⟩ := ha
  obtain ⟨s', h1', h2', h3', h4'⟩ := scan_ok hc hn hh
  have hi' := rinv_start h2' h3' h4'
  unfold Graph.sortHashes at e2
  simp only [h1', bind, Except.bind] at e2
  split at e2
  · rename_i he
    have hno : ∀ p y, ¬ g.Edge heads p y := fun p y hy => (h2'.isEmpty.1 he) y (Or.inl ⟨p, hy⟩)
    split at e2
    · simp at e2
    · rename_i hne
      cases e2
      have : heads = [R] := by
        apply List.perm_singleton.1
        cases heads with
        | nil => simp at hne
        | cons x l =>
          have hx : ∀ z ∈ x :: l, z = R := by
            intro z hz
            rcases htot z (.head hz) with h | h
            · exact h
            · rcases TransGen.tail'_iff.1 h with ⟨q, _, hq⟩
              exact absurd ⟨.head hz, hq⟩ (hno q z)
          rw [List.perm_ext_iff_of_nodup hn (by simp)]
          intro z
          rw [List.mem_singleton]
          refine ⟨hx z, ?_⟩
          rintro rfl
          exact hx x (by simp) ▸ List.mem_cons_self
      exact ⟨[], by rw [this]⟩
  · rename_i hne
    have hrank := edge_rank hr heads
    split at e2
    · simp at e2
    · rename_i r hr1
      cases e2
      -- something is touched, hence R is
      have hRt : Touched (g.Edge heads) R := by
        have : ¬ ∀ z, ¬ Touched (g.Edge heads) z := fun h => hne (h2'.isEmpty.2 h)
        push Not at this
        obtain ⟨z, hz⟩ := this
        have hza := touched_anc hz
        rcases htot z hza with rfl | h
        · exact hz
        · rcases TransGen.head'_iff.1 (edge_trans h hza) with ⟨y, hy, _⟩
          exact .inr ⟨y, hy⟩
      cases hf : s'.topo.deps.length with
      | zero =>
        rw [hf] at hr1
        unfold Graph.roundLoop at hr1
        rw [if_neg hne] at hr1
        simp only [bind, Except.bind] at hr1
        split at hr1
        · simp at hr1
        · simp [Graph.roundLoop] at hr1
      | succ f =>
        rw [hf] at hr1
        unfold Graph.roundLoop at hr1
        rw [if_neg hne] at hr1
        obtain ⟨b1, n, y1, y2, y3⟩ := round_ok hrank hi' (fun hh => hne (h2'.isEmpty.2 (fun z hz => hh z ⟨hz, by simp⟩)))
        rw [y1] at hr1
        simp only [bind, Except.bind] at hr1
        have hn1 : n = [R] := by
          apply List.perm_singleton.1
          rw [List.perm_ext_iff_of_nodup y2.nd (by simp)]
          intro z
          rw [y2.mem]
          simp only [List.flatten_nil, List.nil_append, List.not_mem_nil, not_false_iff, and_true, List.mem_singleton]
          constructor
          · rintro ⟨hz, hz2⟩
            rcases htot z (touched_anc hz) with h | h
            · exact h
            · rcases TransGen.tail'_iff.1 h with ⟨q, _, hq⟩
              exact absurd ⟨touched_anc hz, hq⟩ (hz2 q)
          · rintro rfl
            exact ⟨hRt, fun p hp' => hp p hp'.2⟩
        subst hn1
        have hlb : b1.epochHeads.length ≤ 1 := by
          have := length_le_of_nodup_subset (l := b1.epochHeads) (l' := [R]) y2.inv.ehn (by
            intro z hz
            rw [y2.inv.eh, y2.flat] at hz
            simpa using hz.1)
          simpa using this
        rcases y2.ends with ⟨_, q2, q3⟩ | ⟨q1, _⟩
        · obtain ⟨es, hes⟩ := roundLoop_out hr1
          rw [q3] at hes
          split
          · exact ⟨es, by rw [hes]; simp⟩
          · exact ⟨es ++ [r.cur], by rw [hes]; simp⟩
        · exact absurd hlb q1

/-- The replay order of a graph starts with the replay order up to an operation that is concurrent with nothing. -/
theorem topsort_cut {H : SOp → Nat} {g : Graph} (h : GInv H g) (h1 : OneRootG g) (ht : TidyG g) {R : Nat}
    (hR : AMap.get g.ops R ≠ none) (hcut : ∀ z, AMap.get g.ops z ≠ none → (z = R ∨ TransGen g.Pred z R) ∨ TransGen g.Pred R z)
    {a b : List (List SOp)} (e1 : g.topsortForHeads [R] = .ok a) (e2 : g.topsortGraph = .ok b) : ∃ es, b = a ++ es := by
  unfold Graph.topsortGraph Graph.topsortForHeads at e2
  unfold Graph.topsortForHeads at e1
  simp only [bind, Except.bind] at e1 e2
  split at e1
  · simp at e1
  · rename_i la ha
    split at e2
    · simp at e2
    · rename_i lb hb
      have key : ∃ es, lb = la ++ es := by
        by_cases hp : ∃ p, g.Pred p R
        · exact sortHashes_prefix h.closed h.acyclic h.headsN (headsKnown h) ((anc_all h R).2 hR) hp
            (fun z hz => hcut z ((anc_all h z).1 hz)) ht ha hb
        · -- the first operation
          have hroot : ∀ p, ¬ g.Pred p R := fun p hp' => hp ⟨p, hp'⟩
          obtain ⟨es, hes⟩ := sortHashes_root (R := R) h.closed h.acyclic h.headsN (headsKnown h) hroot (by
            intro z hz
            rcases hcut z ((anc_all h z).1 hz) with (h2 | h2) | h2
            · exact .inl h2
            · rcases TransGen.tail'_iff.1 h2 with ⟨q, _, hq⟩
              exact absurd hq (hroot q)
            · exact .inr h2) hb
          obtain ⟨es', hes'⟩ := sortHashes_root (R := R) h.closed h.acyclic (heads := [R]) (by simp)
            (by simpa using (h.keys R).1 hR) hroot (by
            intro z hz
            rcases (anc_iff z).1 hz with h2 | ⟨y, hy, h2⟩
            · exact .inl (by simpa using h2)
            · simp only [List.mem_singleton] at hy
              subst hy
              rcases TransGen.tail'_iff.1 h2 with ⟨q, _, hq⟩
              exact absurd hq (hroot q)) ha
          have hs' : OrderSpec g [R] la := by
            obtain ⟨l', -, s1', -, -, -, hs'⟩ := order_spec h h1 (heads := [R]) (by simp) (by simpa using hR) (by simp)
            rw [ha] at s1'
            cases s1'
            exact hs'
          have : es' = [] := by
            cases es' with
            | nil => rfl
            | cons e es' =>
              have he := hs'.ne e (by rw [hes']; simp)
              obtain ⟨z, hz⟩ := List.exists_mem_of_ne_nil _ he
              have h3 := hs'.sep
              rw [hes', List.pairwise_cons] at h3
              have h4 := h3.1 e (by simp) R (by simp) z hz
              have h5 := (hs'.mem z).1 (by rw [hes']; simp [hz])
              rcases (anc_iff z).1 h5 with h2 | ⟨y, hy, h2⟩
              · simp only [List.mem_singleton] at h2
                subst h2
                rcases TransGen.tail'_iff.1 h4 with ⟨q, _, hq⟩
                exact absurd hq (hroot q)
              · simp only [List.mem_singleton] at hy
                subst hy
                rcases TransGen.tail'_iff.1 h2 with ⟨q, _, hq⟩
                exact absurd hq (hroot q)
          subst this
          exact ⟨es, by rw [hes, hes']; rfl⟩
      obtain ⟨es, rfl⟩ := key
      rw [lookupEpochs_append, e1] at e2
      simp only [Except.bind] at e2
      split at e2
      · simp at e2
      · cases e2
        exact ⟨_, rfl⟩

end Verif.Cgka
