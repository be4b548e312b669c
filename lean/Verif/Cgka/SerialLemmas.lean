import Verif.Cgka.MakerLemmas
import Verif.Cgka.CutLemmas
import Verif.Cgka.FlatLemmas
import Verif.Cgka.Rederive
import Mathlib.Data.Finset.Card

/-! # Helper lemmas: rebuilding succeeds when no removal is concurrent with anything -/

namespace Verif.Cgka

open Verif.BeeKem Relation BeeKem

/-- `x` is a known removal. -/
def RemovalG (g : Graph) (x : Nat) : Prop := ∃ o id i ks ps, AMap.get g.ops x = some o ∧ o.payload = .remove id i ks ps

/-- Every known removal is before or after every other known operation. -/
def SerialG (g : Graph) : Prop :=
  ∀ x y, RemovalG g x → AMap.get g.ops y ≠ none → y = x ∨ TransGen g.Pred x y ∨ TransGen g.Pred y x

/-- `R` is the last removal, or the root if there is none. -/
structure LastG (g : Graph) (R : Nat) : Prop where
  known : AMap.get g.ops R ≠ none
  kind : (∀ p, ¬ g.Pred p R) ∨ RemovalG g R
  last : ∀ y, RemovalG g y → y = R ∨ TransGen g.Pred y R

/-- The known operations. -/
def opSet (g : Graph) : Finset Nat := (AMap.keys g.ops).toFinset

theorem mem_opSet {g : Graph} {x : Nat} : x ∈ opSet g ↔ AMap.get g.ops x ≠ none := by
  unfold opSet
  rw [List.mem_toFinset, AMap.mem_keys_iff]

def isAddAt (g : Graph) (x : Nat) : Bool :=
  match AMap.get g.ops x with
  | some o => o.payload.isAdd
  | none => false

/-- The additions known in `g` and not in `g'`. -/
def late (g g' : Graph) : Finset Nat := (opSet g).filter (fun x => isAddAt g x = true ∧ AMap.get g'.ops x = none)

def KnownIn (g g' : Graph) : Prop := ∀ y, AMap.get g.ops y ≠ none → AMap.get g'.ops y ≠ none

section
variable {H : SOp → Nat} (hH : Function.Injective H)
include hH

theorem sub_of_known {g g' : Graph} (h : GInv H g) (h' : GInv H g') (hk : KnownIn g g') : Sub g g' := by
  intro x o ho
  have hx : AMap.get g.ops x ≠ none := by rw [ho]; simp
  rw [← ops_agree hH h h' hx (hk x hx), ho]

theorem trans_up {g g' : Graph} (h : GInv H g) (h' : GInv H g') (hk : KnownIn g g') {x y : Nat} (ht : TransGen g.Pred x y) :
    TransGen g'.Pred x y := by
  have hy : AMap.get g.ops y ≠ none := by
    obtain ⟨q, _, hq⟩ := TransGen.tail'_iff.1 ht
    exact (h.known_pred hq).2
  exact (past_agree hH h' h (hk y hy) ht).2

theorem removal_iff {g g' : Graph} (h : GInv H g) (h' : GInv H g') {x : Nat} (hx : AMap.get g.ops x ≠ none)
    (hx' : AMap.get g'.ops x ≠ none) : RemovalG g x ↔ RemovalG g' x := by
  unfold RemovalG
  rw [ops_agree hH h h' hx hx']

theorem oneRoot_sub {g g' : Graph} (h : GInv H g) (h' : GInv H g') (hk : KnownIn g g') (h1 : OneRootG g') : OneRootG g := by
  intro a b ha hb hpa hpb
  have s := sub_of_known hH h h' hk
  refine h1 a b (hk a ha) (hk b hb) (fun p hp => hpa p ?_) (fun p hp => hpb p ?_)
  · exact (s.pred h h' ha).2 hp
  · exact (s.pred h h' hb).2 hp

theorem serial_sub {g g' : Graph} (h : GInv H g) (h' : GInv H g') (hk : KnownIn g g') (h1 : SerialG g') : SerialG g := by
  intro x y hx hy
  have hx0 : AMap.get g.ops x ≠ none := by
    obtain ⟨o, _, _, _, _, ho, _⟩ := hx; rw [ho]; simp
  rcases h1 x y ((removal_iff hH h h' hx0 (hk x hx0)).1 hx) (hk y hy) with e | e | e
  · exact .inl e
  · exact .inr (.inl (past_agree hH h h' hy e).2)
  · exact .inr (.inr (past_agree hH h h' hx0 e).2)

theorem same_head {g g' : Graph} (h : GInv H g) (h' : GInv H g') {x : Nat} (e : g.heads = [x]) (e' : g'.heads = [x]) : SameOps g g' := by
  have sub : ∀ {a b : Graph}, GInv H a → GInv H b → a.heads = [x] → b.heads = [x] → KnownIn a b := by
    intro a b ha hb ea eb y hy
    rcases head_all ha ea hy with rfl | ht
    · exact head_known hb eb
    · exact (past_agree hH hb ha (head_known hb eb) ht).1
  intro y
  by_cases hy : AMap.get g.ops y = none
  · rw [hy]
    by_contra hc
    exact sub h' h e' e y (fun hc' => hc hc'.symm) hy
  · exact ops_agree hH h h' hy (sub h h' e e' y hy)

omit hH in
theorem root_pred {c : Cgka} (h : SInv H c) (p : Nat) : ¬ c.graph.Pred p (H c.initAddOp) := by
  intro hp
  obtain ⟨o, h1, h2⟩ := (h.graph.predOf _ _).1 hp
  rw [h.root.1] at h1
  cases h1
  obtain ⟨n, ps, hf⟩ := h.root.2
  rw [hf] at h2
  simp [Payload.preds, sextend] at h2

omit hH in
theorem root_preds {c : Cgka} (h : SInv H c) : c.initAddOp.payload.preds = [] := by
  obtain ⟨n, ps, hf⟩ := h.root.2
  rw [hf]; simp [Payload.preds, sextend]

theorem root_agree {c w : Cgka} (h : SInv H c) (h' : SInv H w) (hk : KnownIn w.graph c.graph) (h1 : OneRootG c.graph) :
    w.initAddOp = c.initAddOp ∧ w.originalMember = c.originalMember := by
  have s := sub_of_known hH h'.graph h.graph hk
  have hw : AMap.get w.graph.ops (H w.initAddOp) ≠ none := by rw [h'.root.1]; simp
  have e : H w.initAddOp = H c.initAddOp := h1 _ _ (hk _ hw) (by rw [h.root.1]; simp)
    (fun p hp => root_pred h' p ((s.pred h'.graph h.graph hw).2 hp)) (root_pred h)
  have e := hH e
  refine ⟨e, ?_⟩
  obtain ⟨n, ps, hf⟩ := h.root.2
  obtain ⟨n', ps', hf'⟩ := h'.root.2
  rw [e, hf] at hf'
  simp only [Payload.add.injEq] at hf'
  exact Prod.ext hf'.1.symm hf'.2.1.symm

omit hH in
theorem last_exists {c : Cgka} (h : SInv H c) (hs : SerialG c.graph) : ∃ R, LastG c.graph R := by
  have key : ∀ l : List Nat, ∃ R, AMap.get c.graph.ops R ≠ none ∧ ((∀ p, ¬ c.graph.Pred p R) ∨ RemovalG c.graph R) ∧
      ∀ y ∈ l, RemovalG c.graph y → y = R ∨ TransGen c.graph.Pred y R := by
    intro l
    induction l with
    | nil => exact ⟨H c.initAddOp, by rw [h.root.1]; simp, .inl (root_pred h), by simp⟩
    | cons z l ih =>
      obtain ⟨R, r1, r2, r3⟩ := ih
      by_cases hz : RemovalG c.graph z
      · rcases hs z R hz r1 with e | e | e
        · refine ⟨R, r1, r2, ?_⟩
          intro y hy hr
          rcases List.mem_cons.1 hy with rfl | hy
          · exact .inl e.symm
          · exact r3 y hy hr
        · refine ⟨R, r1, r2, ?_⟩
          intro y hy hr
          rcases List.mem_cons.1 hy with rfl | hy
          · exact .inr e
          · exact r3 y hy hr
        · refine ⟨z, ?_, .inr hz, ?_⟩
          · obtain ⟨o, _, _, _, _, ho, _⟩ := hz; rw [ho]; simp
          · intro y hy hr
            rcases List.mem_cons.1 hy with rfl | hy
            · exact .inl rfl
            · rcases r3 y hy hr with rfl | e'
              · exact .inr e
              · exact .inr (e'.trans e)
      · refine ⟨R, r1, r2, ?_⟩
        intro y hy hr
        rcases List.mem_cons.1 hy with rfl | hy
        · exact absurd hr hz
        · exact r3 y hy hr
  obtain ⟨R, r1, r2, r3⟩ := key (AMap.keys c.graph.ops)
  refine ⟨R, r1, r2, fun y hy => r3 y ?_ hy⟩
  obtain ⟨o, _, _, _, _, ho, _⟩ := hy
  rw [AMap.mem_keys_iff, ho]; simp

omit hH in
theorem acyc {g : Graph} (h : GInv H g) {x : Nat} : ¬ TransGen g.Pred x x := by
  obtain ⟨rank, hr⟩ := h.acyclic
  have : ∀ {a b}, TransGen g.Pred a b → rank a < rank b := by
    intro a b hab
    induction hab with
    | single h => exact hr _ _ h
    | tail _ h ih => exact ih.trans (hr _ _ h)
  intro hx
  exact absurd (this hx) (Nat.lt_irrefl _)

omit hH in
theorem LastG.cut {c : Cgka} (h : SInv H c) (h1 : OneRootG c.graph) (hs : SerialG c.graph) {R : Nat} (hR : LastG c.graph R) {z : Nat}
    (hz : AMap.get c.graph.ops z ≠ none) : (z = R ∨ TransGen c.graph.Pred z R) ∨ TransGen c.graph.Pred R z := by
  rcases hR.kind with hr | hr
  · obtain ⟨r, a1, a2, a3⟩ := h.graph.reach_root hz
    have := h1 r R a1 hR.known a2 hr
    subst this
    rcases a3 with e | e
    · exact .inl (.inl e.symm)
    · exact .inr e
  · rcases hs R z hr hz with e | e | e
    · exact .inl (.inl e)
    · exact .inr e
    · exact .inl (.inr e)

/-- Whoever made an operation knew less. -/
theorem maker_lt {c m w : Cgka} {op : SOp} {t : BeeKem} (sw : SInv H w) (sm : SInv H m)
    (hg : w.graph = m.graph.addLocalOp H op) (hm : Makes H m op t w.tree) (hk : KnownIn w.graph c.graph) :
    KnownIn m.graph c.graph ∧ KnownIn m.graph w.graph ∧ AMap.get m.graph.ops (H op) = none ∧
      AMap.get w.graph.ops (H op) = some op ∧ (opSet m.graph).card < (opSet c.graph).card ∧
      ∀ y, TransGen w.graph.Pred y (H op) ↔ AMap.get m.graph.ops y ≠ none := by
  have hops : ∀ y, AMap.get w.graph.ops y = if y = H op then some op else AMap.get m.graph.ops y := by
    intro y
    rw [hg]
    show AMap.get (AMap.insert m.graph.ops (H op) op) y = _
    rw [AMap.get_insert]
  have hmw : KnownIn m.graph w.graph := by
    intro y hy
    rw [hops]; split
    · simp
    · exact hy
  have hop : AMap.get w.graph.ops (H op) = some op := by rw [hops, if_pos rfl]
  have hpast : ∀ y, AMap.get m.graph.ops y ≠ none → TransGen w.graph.Pred y (H op) := by
    intro y hy
    obtain ⟨s, hs, hys⟩ := sm.graph.reach_head hy
    have e1 : w.graph.Pred s (H op) := (sw.graph.predOf _ _).2 ⟨op, hop, (hm.preds s).2 hs⟩
    rcases hys with rfl | hys
    · exact .single e1
    · exact .tail (trans_up hH sm.graph sw.graph hmw hys) e1
  have hnone : AMap.get m.graph.ops (H op) = none := by
    by_contra hc
    exact acyc sw.graph (hpast _ hc)
  refine ⟨fun y hy => hk y (hmw y hy), hmw, hnone, hop, ?_, fun y => ⟨fun hy => ?_, hpast y⟩⟩
  · apply Finset.card_lt_card
    rw [Finset.ssubset_iff_of_subset]
    · refine ⟨H op, ?_, ?_⟩
      · rw [mem_opSet]; exact hk _ (by rw [hop]; simp)
      · rw [mem_opSet]; simp [hnone]
    · intro y hy
      rw [mem_opSet] at hy ⊢
      exact hk y (hmw y hy)
  · have hy' : AMap.get w.graph.ops y ≠ none := by
      obtain ⟨q, hq, _⟩ := TransGen.head'_iff.1 hy
      exact (sw.graph.known_pred hq).1
    rw [hops] at hy'
    split at hy'
    · rename_i he
      subst he
      exact absurd hy (acyc sw.graph)
    · exact hy'

/-- What is shown of every replica by induction on how much it knows. -/
def Rebuilds (H : SOp → Nat) (c : Cgka) : Prop :=
  ∃ r h, rebuilt H c.originalMember c.initAddOp c.graph = .ok r ∧ WInv r.tree h ∧
    ∀ R w, LastG c.graph R → Trusted H w → w.graph.heads = [R] →
      r.tree.nextLeafIdx = w.tree.nextLeafIdx + (late c.graph w.graph).card

theorem settled_tree {m : Cgka} {t : BeeKem} (hm : Trusted H m) (h1 : OneRootG m.graph)
    (hr : ∃ m1, m.replayIfNeeded H = .ok m1 ∧ m1.tree = t) :
    ∃ r, rebuilt H m.originalMember m.initAddOp m.graph = .ok r ∧ r.tree = t := by
  have sm := reachOk_inv hH (trusted_ok hm)
  obtain ⟨m1, e1, rfl⟩ := hr
  exact (settle sm e1).1.rebuilt sm.graph h1 (trusted_tidy hH hm) sm.root.1 (root_preds sm)

theorem head_tree {w : Cgka} (hw : Trusted H w) (h1 : OneRootG w.graph) {R : Nat} (hR : w.graph.heads = [R]) :
    ∃ r, rebuilt H w.originalMember w.initAddOp w.graph = .ok r ∧ r.tree = w.tree := by
  have sw := reachOk_inv hH (trusted_ok hw)
  exact (sw.settled (by rw [hR]; rfl)).rebuilt sw.graph h1 (trusted_tidy hH hw) sw.root.1 (root_preds sw)

/-- The tree right after the last removal is in order. -/
theorem last_tree {c w : Cgka} (hc : Trusted H c) (h1 : OneRootG c.graph) (hs : SerialG c.graph)
    (ih : ∀ m, Trusted H m → KnownIn m.graph c.graph → (opSet m.graph).card < (opSet c.graph).card → Rebuilds H m)
    {R : Nat} (hR : LastG c.graph R) (hw : Trusted H w) (hh : w.graph.heads = [R]) : ∃ h, WInv w.tree h := by
  have sc := reachOk_inv hH (trusted_ok hc)
  have sw := reachOk_inv hH (trusted_ok hw)
  obtain ⟨w', v1, v2, v3, v4⟩ := trusted_maker hH hc R hR.known
  have sv := reachOk_inv hH (trusted_ok v1)
  have hsame := same_head hH sw.graph sv.graph hh v2
  have hwc : KnownIn w.graph c.graph := fun y hy => v3 y (by rw [← hsame y]; exact hy)
  obtain ⟨i1, i2⟩ := root_agree hH sc sw hwc h1
  obtain ⟨j1, j2⟩ := root_agree hH sc sv v3 h1
  have htree : w.tree = w'.tree := by
    have a := sw.settled (by rw [hh]; rfl)
    have b := sv.settled (by rw [v2]; rfl)
    rw [i1, i2] at a
    rw [j1, j2] at b
    exact a.unique hH b sw.graph sv.graph hsame (oneRoot_sub hH sw.graph sc.graph hwc h1) (root_preds sc)
  rw [htree]
  rcases v4 with ⟨id, pk, op, hf, hn, hx⟩ | ⟨m, op, t, hm, hmk, hg, hx⟩
  · unfold Cgka.newFromInitAdd at hn
    obtain ⟨t, e1, e2, -⟩ := new_ok id pk
    simp only [e1, bind, Except.bind, pure, Except.pure, Except.ok.injEq] at hn
    subst hn
    exact ⟨1, e2.toWInv⟩
  · have sm := reachOk_inv hH (trusted_ok hm)
    obtain ⟨k1, k2, k3, k4, k5, k6⟩ := maker_lt hH sv sm hg hmk v3
    have hRop : AMap.get c.graph.ops R = some op := by
      rw [hx]
      exact sub_of_known hH sv.graph sc.graph v3 _ _ k4
    have hrem : RemovalG c.graph R := by
      rcases hR.kind with hr | hr
      · exfalso
        obtain ⟨s, hs⟩ := List.exists_mem_of_ne_nil _ sm.graph.ne
        exact hr s ((sc.graph.predOf _ _).2 ⟨op, hRop, (hmk.preds s).2 hs⟩)
      · exact hr
    obtain ⟨o, id, i, ks, ps, ho, hp⟩ := hrem
    rw [hRop] at ho
    cases ho
    obtain ⟨r, h, e1, e2, -⟩ := ih m hm k1 k5
    obtain ⟨r', e3, e4⟩ := settled_tree hH hm (oneRoot_sub hH sm.graph sc.graph k1 h1) hmk.settled
    rw [e1] at e3
    cases e3
    rw [e4] at e2
    have htr := hmk.tree
    unfold treeOp at htr
    rw [hp] at htr
    dsimp only at htr
    cases hrm : t.removeId id with
    | error e => rw [hrm] at htr; simp [bind, Except.bind] at htr
    | ok p =>
      rw [hrm] at htr
      simp only [bind, Except.bind, pure, Except.pure, Except.ok.injEq] at htr
      obtain ⟨t', x⟩ := p
      have hm1 : t.memberCount ≠ 1 := by
        intro hm
        unfold BeeKem.removeId at hrm
        rw [if_pos hm] at hrm
        simp at hrm
      cases hid : AMap.get t.idToLeafIdx id with
      | none =>
        unfold BeeKem.removeId at hrm
        rw [if_neg hm1] at hrm
        simp [BeeKem.leafIndexForId, hid, bind, Except.bind] at hrm
      | some i =>
        obtain ⟨t1, B, f1, f2, -⟩ := BeeKem.removeId_ok e2 hid hm1
        rw [hrm] at f1
        simp only [Except.ok.injEq, Prod.mk.injEq] at f1
        rw [← htr]
        exact ⟨h, by rw [f1.1]; exact f2⟩

theorem rebuilds_step {c : Cgka} (hc : Trusted H c) (h1 : OneRootG c.graph) (hs : SerialG c.graph)
    (ih : ∀ m, Trusted H m → KnownIn m.graph c.graph → (opSet m.graph).card < (opSet c.graph).card → Rebuilds H m) :
    Rebuilds H c := by
  have sc := reachOk_inv hH (trusted_ok hc)
  -- one choice of the last removal and of a replica there
  have core : ∀ R w, LastG c.graph R → Trusted H w → w.graph.heads = [R] →
      ∃ r h, rebuilt H c.originalMember c.initAddOp c.graph = .ok r ∧ WInv r.tree h ∧
        r.tree.nextLeafIdx = w.tree.nextLeafIdx + (late c.graph w.graph).card := by
    intro R w hR hw hh
    have sw := reachOk_inv hH (trusted_ok hw)
    have hwc : KnownIn w.graph c.graph := by
      intro y hy
      rcases head_all sw.graph hh hy with rfl | ht
      · exact hR.known
      · exact (past_agree hH sc.graph sw.graph hR.known ht).1
    have hwk : ∀ y, AMap.get w.graph.ops y ≠ none ↔ y = R ∨ TransGen c.graph.Pred y R := by
      intro y
      constructor
      · intro hy
        rcases head_all sw.graph hh hy with e | ht
        · exact .inl e
        · exact .inr (trans_up hH sw.graph sc.graph hwc ht)
      · rintro (rfl | ht)
        · exact head_known sw.graph hh
        · exact (past_agree hH sw.graph sc.graph (head_known sw.graph hh) ht).1
    obtain ⟨hw0, w0⟩ := last_tree hH hc h1 hs ih hR hw hh
    obtain ⟨i1, i2⟩ := root_agree hH sc sw hwc h1
    have h1w := oneRoot_sub hH sw.graph sc.graph hwc h1
    obtain ⟨r0, b1, b2⟩ := head_tree hH hw h1w hh
    rw [i1, i2] at b1
    obtain ⟨b3, b4⟩ := rebuilt_graph sw.graph h1w (by rw [← i1]; exact sw.root.1) (root_preds sc) b1
    -- the order of replay
    obtain ⟨l, es, hl, hts, hlm, hes, hsp⟩ := order_spec sc.graph h1 sc.graph.headsN
      (fun x hx => ((sc.graph.heads x).1 hx).1) sc.graph.ne
    have hts' : c.graph.topsortGraph = .ok es := hts
    obtain ⟨lw, ew, hlw, htw, hlmw, hesw, hspw⟩ := order_spec sw.graph h1w sw.graph.headsN
      (fun x hx => ((sw.graph.heads x).1 hx).1) sw.graph.ne
    have htw' : w.graph.topsortGraph = .ok ew := htw
    obtain ⟨es2, hcut⟩ := topsort_cut sc.graph h1 (trusted_tidy hH hc) hR.known (fun z hz => hR.cut sc h1 hs hz)
      (topsort_sub (sub_of_known hH sw.graph sc.graph hwc) sw.graph sc.graph hh htw') hts'
    have hflat : es.flatten.map H = l.flatten := by rw [← hlm, List.map_flatten]
    have hflatw : ew.flatten.map H = lw.flatten := by rw [← hlmw, List.map_flatten]
    have hnd : (ew.flatten.map H ++ es2.flatten.map H).Nodup := by
      rw [← List.map_append, ← List.flatten_append, ← hcut, hflat]
      exact hsp.nodup
    rw [List.nodup_append] at hnd
    obtain ⟨nd1, nd2, nd3⟩ := hnd
    have hord : (ew.flatten.map H ++ es2.flatten.map H).Pairwise (fun a b => ¬ TransGen c.graph.Pred b a) := by
      rw [← List.map_append, ← List.flatten_append, ← hcut, hflat]
      exact hsp.order
    have hord2 := (List.pairwise_append.1 hord).2.1
    have hmemw : ∀ x, x ∈ ew.flatten.map H ↔ AMap.get w.graph.ops x ≠ none := by
      intro x
      rw [hflatw, hspw.mem, anc_all sw.graph]
    have hmem : ∀ x, x ∈ ew.flatten.map H ∨ x ∈ es2.flatten.map H ↔ AMap.get c.graph.ops x ≠ none := by
      intro x
      rw [← List.mem_append, ← List.map_append, ← List.flatten_append, ← hcut, hflat, hsp.mem, anc_all sc.graph]
    have hmem2 : ∀ x, x ∈ es2.flatten.map H ↔ AMap.get c.graph.ops x ≠ none ∧ AMap.get w.graph.ops x = none := by
      intro x
      constructor
      · intro hx
        refine ⟨(hmem x).1 (.inr hx), ?_⟩
        by_contra hc'
        exact nd3 x ((hmemw x).2 hc') x hx rfl
      · rintro ⟨a, b⟩
        rcases (hmem x).2 a with e | e
        · exact absurd b ((hmemw x).1 e)
        · exact e
    have hes2 : ∀ o ∈ es2.flatten, AMap.get c.graph.ops (H o) = some o := by
      intro o ho
      exact hes o (by rw [hcut, List.flatten_append]; exact List.mem_append_right _ ho)
    have hfresh : Fresh H r0 es2.flatten := by
      refine ⟨nd2, fun o ho => ?_⟩
      rw [b4 (H o)]
      exact ((hmem2 (H o)).1 (List.mem_map_of_mem ho)).2
    have hflatOps : Flat r0.tree.nextLeafIdx es2.flatten := by
      intro pre o post he
      have ho : o ∈ es2.flatten := by rw [he]; simp
      have hoc := hes2 o ho
      have how := ((hmem2 (H o)).1 (List.mem_map_of_mem ho)).2
      have hoR : TransGen c.graph.Pred R (H o) := by
        rcases hR.cut sc h1 hs (z := H o) (by rw [hoc]; simp) with e | e
        · exact absurd how ((hwk _).2 e)
        · exact e
      refine ⟨?_, ?_⟩
      · intro id i ks ps hp
        exact (hwk (H o)).2 (hR.last (H o) ⟨o, id, i, ks, ps, hoc, hp⟩) how
      · intro id pc ps hp
        obtain ⟨v, v1, v2, v3, v4⟩ := trusted_maker hH hc (H o) (by rw [hoc]; simp)
        have sv := reachOk_inv hH (trusted_ok v1)
        rcases v4 with ⟨id', pk', op, hf, _, hx⟩ | ⟨m, op, t, hm, hmk, hg, hx⟩
        · have := hH hx
          subst this
          obtain ⟨_, _, hf⟩ := hf
          rw [hf] at hp
          cases hp
        · have := hH hx
          subst this
          have sm := reachOk_inv hH (trusted_ok hm)
          obtain ⟨k1, k2, k3, k4, k5, k6⟩ := maker_lt hH sv sm hg hmk v3
          have hpast : ∀ y, TransGen c.graph.Pred y (H o) ↔ AMap.get m.graph.ops y ≠ none := by
            intro y
            rw [← k6 y]
            constructor
            · intro hy
              exact (past_agree hH sv.graph sc.graph (by rw [k4]; simp) hy).2
            · exact trans_up hH sv.graph sc.graph v3
          have hRm := (hpast R).1 hoR
          have hlast : LastG m.graph R := by
            refine ⟨hRm, ?_, ?_⟩
            · rcases hR.kind with hr | hr
              · left
                intro p hp'
                exact hr p (((sub_of_known hH sm.graph sc.graph k1).pred sm.graph sc.graph hRm).1 hp')
              · right
                exact (removal_iff hH sm.graph sc.graph hRm hR.known).2 hr
            · intro y hy
              have hym : AMap.get m.graph.ops y ≠ none := by
                obtain ⟨o', _, _, _, _, ho', _⟩ := hy; rw [ho']; simp
              rcases hR.last y ((removal_iff hH sm.graph sc.graph hym (k1 y hym)).1 hy) with e | e
              · exact .inl e
              · exact .inr (past_agree hH sm.graph sc.graph hRm e).2
          obtain ⟨r, h, e1, e2, e3⟩ := ih m hm k1 k5
          obtain ⟨r', e4, e5⟩ := settled_tree hH hm (oneRoot_sub hH sm.graph sc.graph k1 h1) hmk.settled
          rw [e1] at e4
          cases e4
          have e6 := e3 R w hlast hw hh
          rw [e5] at e2 e6
          obtain ⟨g, n, uid, pk, sks, s', sks', n', k, henc⟩ := hmk.path id pc ps hp
          have hfit := (encryptPath_fits e2 henc).1
          refine hfit.mono ?_
          rw [e6, b2]
          apply Nat.add_le_add_left
          have hlen : adds pre = ((pre.filter (fun o => o.payload.isAdd)).map H).length := by
            rw [List.length_map, adds, List.countP_eq_length_filter]
          rw [hlen]
          refine le_trans (Finset.card_le_card ?_) (List.toFinset_card_le _)
          intro y hy
          unfold late at hy
          rw [Finset.mem_filter, mem_opSet] at hy
          obtain ⟨y1, y2, y3⟩ := hy
          have y4 := (hpast y).2 y1
          have y5 := (hmem2 y).2 ⟨k1 y y1, y3⟩
          obtain ⟨a, ha, rfl⟩ := List.mem_map.1 y5
          have hac := hes2 a ha
          have ham : AMap.get m.graph.ops (H a) = some a := by
            rw [ops_agree hH sm.graph sc.graph y1 (k1 _ y1), hac]
          have hadd : a.payload.isAdd = true := by
            unfold isAddAt at y2
            rw [ham] at y2
            exact y2
          have hapre : a ∈ pre := by
            rw [he] at ha
            rcases List.mem_append.1 ha with e | e
            · exact e
            · exfalso
              rcases List.mem_cons.1 e with rfl | e
              · exact acyc sc.graph y4
              · rw [he, List.map_append, List.map_cons] at hord2
                have := (List.pairwise_append.1 hord2).2.1
                rw [List.pairwise_cons] at this
                exact this.1 (H a) (List.mem_map_of_mem e) y4
          rw [List.mem_toFinset]
          exact List.mem_map_of_mem (List.mem_filter.2 ⟨hapre, hadd⟩)
    rw [← b2] at w0
    obtain ⟨r, h, f1, f2, f3⟩ := applyEpochs_flat es2 w0 hfresh hflatOps
    refine ⟨r, h, ?_, f2, ?_⟩
    · unfold rebuilt at b1 ⊢
      simp only [htw', bind, Except.bind] at b1
      simp only [hts', bind, Except.bind]
      split at b1
      · simp at b1
      · rename_i s hs'
        rw [hcut, applyEpochs_append, b1]
        exact f1
    · rw [f3, b2]
      congr 1
      have hlen : adds es2.flatten = ((es2.flatten.filter (fun o => o.payload.isAdd)).map H).length := by
        rw [List.length_map, adds, List.countP_eq_length_filter]
      have hnd' : ((es2.flatten.filter (fun o => o.payload.isAdd)).map H).Nodup :=
        nd2.sublist (List.filter_sublist.map H)
      rw [hlen, ← List.toFinset_card_of_nodup hnd']
      congr 1
      ext y
      rw [List.mem_toFinset]
      unfold late
      rw [Finset.mem_filter, mem_opSet]
      constructor
      · intro hy
        obtain ⟨a, ha, rfl⟩ := List.mem_map.1 hy
        obtain ⟨ha1, ha2⟩ := List.mem_filter.1 ha
        obtain ⟨q1, q2⟩ := (hmem2 (H a)).1 (List.mem_map_of_mem ha1)
        refine ⟨q1, ?_, q2⟩
        unfold isAddAt
        rw [hes2 a ha1]
        exact ha2
      · rintro ⟨q1, q2, q3⟩
        obtain ⟨a, ha, rfl⟩ := List.mem_map.1 ((hmem2 y).2 ⟨q1, q3⟩)
        unfold isAddAt at q2
        rw [hes2 a ha] at q2
        exact List.mem_map_of_mem (List.mem_filter.2 ⟨ha, q2⟩)
  obtain ⟨R, hR⟩ := last_exists sc hs
  obtain ⟨w, w1, w2, -⟩ := trusted_maker hH hc R hR.known
  obtain ⟨r, h, e1, e2, -⟩ := core R w hR w1 w2
  refine ⟨r, h, e1, e2, ?_⟩
  intro R' w' hR' hw' hh'
  obtain ⟨r', h', e1', e2', e3'⟩ := core R' w' hR' hw' hh'
  rw [e1] at e1'
  cases e1'
  exact e3'

theorem rebuilds {c : Cgka} (hc : Trusted H c) (h1 : OneRootG c.graph) (hs : SerialG c.graph) : Rebuilds H c := by
  generalize hn : (opSet c.graph).card = n
  induction n using Nat.strongRecOn generalizing c with
  | _ n ih =>
    refine rebuilds_step hH hc h1 hs ?_
    intro m hm hk hlt
    have sc := reachOk_inv hH (trusted_ok hc)
    have sm := reachOk_inv hH (trusted_ok hm)
    exact ih _ (hn ▸ hlt) hm (oneRoot_sub hH sm.graph sc.graph hk h1) (serial_sub hH sm.graph sc.graph hk hs) rfl

end

end Verif.Cgka
