import Verif.Cgka.CutOffSpec
import Verif.Cgka.SecrecyLemmas
import Verif.Cgka.TogetherLemmas

/-! # Helper lemmas: if nothing is concurrent with an addition or removal, keys that were replaced or withdrawn do not lead to the group secret -/

namespace Verif.Cgka

open Verif.BeeKem Relation

/-! ## The record grows by one operation on top of everything -/

theorem GInv.noLoop {H : SOp → Nat} {g : Graph} (h : GInv H g) {x : Nat} (hx : TransGen g.Pred x x) : False := by
  obtain ⟨rank, hr⟩ := h.acyclic
  have : ∀ {a b}, TransGen g.Pred a b → rank a < rank b := by
    intro a b hab
    induction hab with
    | single h => exact hr _ _ h
    | tail _ h ih => exact Nat.lt_trans ih (hr _ _ h)
  exact Nat.lt_irrefl _ (this hx)

structure Grown (g g' : Graph) (x : Nat) (op : SOp) : Prop where
  fresh : AMap.get g.ops x = none
  ops : ∀ y, AMap.get g'.ops y = if y = x then some op else AMap.get g.ops y
  past : ∀ {y z}, z ≠ x → TransGen g'.Pred y z → TransGen g.Pred y z
  last : ∀ z, ¬ TransGen g'.Pred x z

theorem grown_of {H : SOp → Nat} (hH : Function.Injective H) {g : Graph} {op : SOp} (h : GInv H g) (h' : GInv H (g.addLocalOp H op))
    (hp : ∀ x ∈ g.heads, x ∈ op.payload.preds) : Grown g (g.addLocalOp H op) (H op) op := by
  have hops : ∀ y, AMap.get (g.addLocalOp H op).ops y = if y = H op then some op else AMap.get g.ops y := by
    intro y
    show AMap.get (AMap.insert g.ops (H op) op) y = _
    rw [AMap.get_insert]
  have hsub : ∀ y, AMap.get g.ops y ≠ none → AMap.get (g.addLocalOp H op).ops y ≠ none := by
    intro y hy
    rw [hops]; split
    · simp
    · exact hy
  have hfresh : AMap.get g.ops (H op) = none := by
    by_contra hc
    obtain ⟨s, hs, h1⟩ := h.reach_head hc
    have hlast : (g.addLocalOp H op).Pred s (H op) :=
      (h'.predOf _ _).2 ⟨op, by rw [hops, if_pos rfl], hp s hs⟩
    have hk := hsub s ((h.heads s).1 hs).1
    rcases h1 with h1 | h1
    · rw [← h1] at hlast
      exact h'.noLoop (.single hlast)
    · exact h'.noLoop ((past_agree hH h' h hk h1).2.tail hlast)
  have hpast : ∀ {y z}, z ≠ H op → TransGen (g.addLocalOp H op).Pred y z → TransGen g.Pred y z := by
    intro y z hz hyz
    have hzk : AMap.get g.ops z ≠ none := by
      obtain ⟨q, _, hq⟩ := TransGen.tail'_iff.1 hyz
      have := (h'.known_pred hq).2
      rw [hops, if_neg hz] at this
      exact this
    exact (past_agree hH h h' hzk hyz).2
  refine ⟨hfresh, hops, hpast, ?_⟩
  intro z hz
  by_cases hzx : z = H op
  · rw [hzx] at hz; exact h'.noLoop hz
  · obtain ⟨q, hq, _⟩ := TransGen.head'_iff.1 (hpast hzx hz)
    exact (h.known_pred hq).1 hfresh

/-- Nothing later replaces or withdraws what `y` gave to `id`. -/
def CurrentG (g : Graph) (y : Nat) (id : MemberId) : Prop :=
  ∀ z o, AMap.get g.ops z = some o → TransGen g.Pred y z → ¬ o.payload.Renews id

theorem CurrentG.grow {g g' : Graph} {x y : Nat} {op : SOp} {id : MemberId} (h : CurrentG g y id) (hg : Grown g g' x op)
    (hn : ¬ op.payload.Renews id) : CurrentG g' y id := by
  intro z o hz hyz
  by_cases hzx : z = x
  · rw [hg.ops, if_pos hzx] at hz
    cases hz; exact hn
  · rw [hg.ops, if_neg hzx] at hz
    exact h z o hz (hg.past hzx hyz)

theorem CurrentG.now {g g' : Graph} {x : Nat} {op : SOp} (hg : Grown g g' x op) (id : MemberId) : CurrentG g' x id :=
  fun _ _ _ h => absurd h (hg.last _)

/-! ## The invariant -/

/-- The keys the operation puts on the leaf of the member it gives keys to. -/
def Payload.own : Payload → List Sk
  | .add _ pk _ _ _ => [pk.of]
  | .update _ pc _ => pc.leafPk.keys.map (·.of)
  | .remove .. => []

theorem Payload.own_brought {p : Payload} {s : Sk} (h : s ∈ p.own) : s ∈ p.brought := by
  cases p with
  | add id pk n ps qs => exact h
  | update id pc ps => exact List.mem_append_left _ h
  | remove id n ks ps => simp [Payload.own] at h

/-- Node keys are random. -/
def FreshG (g : Graph) : Prop :=
  (∀ x y ox oy s, AMap.get g.ops x = some ox → AMap.get g.ops y = some oy → s ∈ ox.payload.made →
    (s ∈ oy.payload.made → x = y) ∧ s ∉ oy.payload.brought) ∧
  ∀ x o, AMap.get g.ops x = some o → o.payload.made.Nodup

/-- Every key in the tree was given by an operation whose keys are current to a member below it, and ciphertexts with a key that is in the tree are sealed with
two keys from below it, or with one of them and a throw-away key. -/
structure Safe (g : Graph) (t : BeeKem) : Prop where
  leaf : ∀ m s, BeeKem.Sole t 0 m s → ∃ y o id, AMap.get g.ops y = some o ∧ o.payload.GivesTo id ∧ s ∈ o.payload.own ∧
    AMap.get t.idToLeafIdx id = some m ∧ CurrentG g y id
  inner : ∀ k m s, BeeKem.Sole t (k + 1) m s → ∃ y o id i, AMap.get g.ops y = some o ∧ o.payload.GivesTo id ∧ s ∈ o.payload.made ∧
    AMap.get t.idToLeafIdx id = some i ∧ i / 2 ^ (k + 1) = m ∧ CurrentG g y id
  pos : ∀ y o, AMap.get g.ops y = some o → ∀ e ∈ o.payload.ciphers, ∀ k m, BeeKem.Sole t (k + 1) m e.plain →
    ∃ a b, e.key = deriveSymmetricKey a ⟨b⟩ ∧ BeeKem.SoleBelow t (k + 1) m a ∧
      (BeeKem.SoleBelow t (k + 1) m b ∨ b ∈ o.payload.brought)

theorem has_leaf {t : BeeKem} {m : Nat} {s : Sk} : BeeKem.Sole t 0 m s ↔ ∃ l, t.leafD m = some l ∧ l.pk = .share ⟨s⟩ := by
  unfold BeeKem.Sole
  cases h : t.leafD m with
  | none => simp [BeeKem.keyD, h]
  | some l => simp [BeeKem.keyD, h]

theorem safe_add {g g' : Graph} {x : Nat} {op : SOp} {t t' : BeeKem} (hs : Strong t) (hS : Safe g t)
    (hg : Grown g g' x op) {id : MemberId} {pk : Pk} {i : Nat} {ps qs : List Nat} (hp : op.payload = .add id pk i ps qs)
    (hn : t.containsId id = false) {i1 : Nat} (h : t.pushLeaf id (.share pk) = .ok (t', i1)) : Safe g' t' := by
  obtain ⟨k, w, _⟩ := hs
  have hno : AMap.get t.idToLeafIdx id = none := BeeKem.contains_false.1 hn
  obtain ⟨t1, k', e1, e2, e3, e4, e5, e6, e7⟩ := BeeKem.pushLeaf_full w.toWInv id (.share pk)
  rw [h] at e1
  simp only [Except.ok.injEq, Prod.mk.injEq] at e1
  obtain ⟨rfl, rfl⟩ := e1
  have hold : ∀ {y o}, AMap.get g.ops y = some o → AMap.get g'.ops y = some o := by
    intro y o hy
    rw [hg.ops, if_neg, hy]
    rintro rfl; rw [hg.fresh] at hy; simp at hy
  have hids : ∀ {id' j}, AMap.get t.idToLeafIdx id' = some j → AMap.get t'.idToLeafIdx id' = some j := by
    intro id' j hj
    rw [e5, AMap.get_insert, if_neg, hj]
    rintro rfl; rw [hno] at hj; simp at hj
  have hnr : ∀ id', ¬ op.payload.Renews id' := by intro id'; rw [hp]; exact fun h => h
  refine ⟨?_, ?_, ?_⟩
  · intro m s hm
    obtain ⟨l, h1, h2⟩ := has_leaf.1 hm
    rw [e6] at h1
    split at h1
    · rename_i hm
      cases h1
      simp only [NodeKey.share.injEq] at h2
      refine ⟨x, op, id, by rw [hg.ops, if_pos rfl], by rw [hp]; rfl, by rw [hp, h2]; simp [Payload.own], ?_, .now hg id⟩
      rw [e5, hm, AMap.get_insert_self]
    · obtain ⟨y, o, id', a1, a2, a3, a4, a5⟩ := hS.leaf m s (has_leaf.2 ⟨l, h1, h2⟩)
      exact ⟨y, o, id', hold a1, a2, a3, hids a4, a5.grow hg (hnr _)⟩
  · intro k m s hm
    obtain ⟨y, o, id', j, a1, a2, a3, a4, a5, a6⟩ := hS.inner k m s (e7.sole e2.shape hm).2
    exact ⟨y, o, id', j, hold a1, a2, a3, hids a4, a5, a6.grow hg (hnr _)⟩
  · intro y o hy e he k m hm
    obtain ⟨hsb, hm'⟩ := e7.sole e2.shape hm
    rw [hg.ops] at hy
    split at hy
    · cases hy; rw [hp] at he; simp [Payload.ciphers] at he
    · obtain ⟨a, b, b1, b2, b3⟩ := hS.pos y o hy e he k m hm'
      exact ⟨a, b, b1, b2.congr hsb, b3.imp (·.congr hsb) (fun h => h)⟩

theorem safe_remove {g g' : Graph} {x : Nat} {op : SOp} {t t' : BeeKem} (hs : Strong t) (hS : Safe g t)
    (hg : Grown g g' x op) {id : MemberId} {i : Nat} {rk : List Pk} {ps : List Nat} (hp : op.payload = .remove id i rk ps)
    {i1 : Nat} {rk1 : List Pk} (h : t.removeId id = .ok (t', i1, rk1)) : Safe g' t' := by
  obtain ⟨k, w, _⟩ := hs
  have hold : ∀ {y o}, AMap.get g.ops y = some o → AMap.get g'.ops y = some o := by
    intro y o hy
    rw [hg.ops, if_neg, hy]
    rintro rfl; rw [hg.fresh] at hy; simp at hy
  rcases BeeKem.removeId_cases t id with ⟨_, h2⟩ | ⟨_, _, h2⟩ | ⟨i', hlen, hid⟩
  · rw [h] at h2; simp at h2
  · rw [h] at h2; simp at h2
  · obtain ⟨t1, B, e1, e2, e3, e4, e5, e6, e7⟩ := BeeKem.removeId_ok w.toWInv hid hlen
    rw [h] at e1
    simp only [Except.ok.injEq, Prod.mk.injEq] at e1
    obtain ⟨rfl, rfl, rfl⟩ := e1
    have hids : ∀ {id' j}, id' ≠ id → AMap.get t.idToLeafIdx id' = some j → AMap.get t'.idToLeafIdx id' = some j := by
      intro id' j hne hj
      rw [e3, AMap.get_erase, if_neg hne, hj]
    have hnr : ∀ id', id' ≠ id → ¬ op.payload.Renews id' := by
      intro id' hne; rw [hp]; exact fun h => hne h.symm
    refine ⟨?_, ?_, ?_⟩
    · intro m s hm
      obtain ⟨l, h1, h2⟩ := has_leaf.1 hm
      rw [e4] at h1
      split at h1
      · simp at h1
      · rename_i hmi
        obtain ⟨y, o, id', a1, a2, a3, a4, a5⟩ := hS.leaf m s (has_leaf.2 ⟨l, h1, h2⟩)
        have hne : id' ≠ id := by
          rintro rfl
          rw [hid] at a4
          cases a4; exact hmi rfl
        exact ⟨y, o, id', hold a1, a2, a3, hids hne a4, a5.grow hg (hnr _ hne)⟩
    · intro k' m s hm
      obtain ⟨y, o, id', j, a1, a2, a3, a4, a5, a6⟩ := hS.inner k' m s (e7.sole e2.shape hm).2
      have hne : id' ≠ id := by
        rintro rfl
        rw [hid] at a4
        cases a4
        apply BeeKem.inner_of_has hm.has
        rw [e7.inner, if_pos]
        refine ⟨i1, e5, BeeKem.mem_path_nodeInner.2 ⟨?_, a5.symm⟩⟩
        exact (BeeKem.nodeInner_lt.1 (BeeKem.innerD_lt e2.shape (BeeKem.inner_of_has hm.has))).1
      exact ⟨y, o, id', j, hold a1, a2, a3, hids hne a4, a5, a6.grow hg (hnr _ hne)⟩
    · intro y o hy e he k m hm
      obtain ⟨hsb, hm'⟩ := e7.sole e2.shape hm
      rw [hg.ops] at hy
      split at hy
      · cases hy; rw [hp] at he; simp [Payload.ciphers] at he
      · obtain ⟨a, b, b1, b2, b3⟩ := hS.pos y o hy e he k m hm'
        exact ⟨a, b, b1, b2.congr hsb, b3.imp (·.congr hsb) (fun h => h)⟩

theorem FreshG.sub {H : SOp → Nat} (hH : Function.Injective H) {g g' : Graph} (h : GInv H g) (h' : GInv H g')
    (hs : ∀ x, AMap.get g.ops x ≠ none → AMap.get g'.ops x ≠ none) (hf : FreshG g') : FreshG g := by
  have up : ∀ {x o}, AMap.get g.ops x = some o → AMap.get g'.ops x = some o := by
    intro x o hx
    have hn : AMap.get g.ops x ≠ none := by rw [hx]; simp
    rw [← ops_agree hH h h' hn (hs x hn), hx]
  exact ⟨fun x y ox oy s hx hy => hf.1 x y ox oy s (up hx) (up hy), fun x o hx => hf.2 x o (up hx)⟩

theorem Safe.congr {H : SOp → Nat} {g g' : Graph} {t : BeeKem} (h : GInv H g) (h' : GInv H g')
    (he : ∀ x, AMap.get g.ops x = AMap.get g'.ops x) (hS : Safe g t) : Safe g' t := by
  have hp : g'.Pred = g.Pred := by
    funext p x
    rw [eq_iff_iff, h'.predOf, h.predOf, he]
  have hc : ∀ {y id}, CurrentG g y id → CurrentG g' y id := by
    intro y id hc z o hz hyz
    rw [← he] at hz
    rw [hp] at hyz
    exact hc z o hz hyz
  refine ⟨?_, ?_, ?_⟩
  · intro m s hm
    obtain ⟨y, o, id, a1, a2⟩ := hS.leaf m s hm
    exact ⟨y, o, id, by rw [← he]; exact a1, a2.1, a2.2.1, a2.2.2.1, hc a2.2.2.2⟩
  · intro k m s hm
    obtain ⟨y, o, id, i, a1, a2, a3, a4, a5, a6⟩ := hS.inner k m s hm
    exact ⟨y, o, id, i, by rw [← he]; exact a1, a2, a3, a4, a5, hc a6⟩
  · intro y o hy
    rw [← he] at hy
    exact hS.pos y o hy

theorem safe_new {H : SOp → Nat} (hH : Function.Injective H) {id : MemberId} {pk : Pk} {op : SOp} {c : Cgka} (hp : First op.payload id pk)
    (hn : Cgka.newFromInitAdd H id pk op = .ok c) : Safe c.graph c.tree := by
  have sc := reachOk_inv hH (.new hp hn)
  unfold Cgka.newFromInitAdd at hn
  simp only [bind, Except.bind] at hn
  split at hn
  · simp at hn
  · rename_i t ht
    cases hn
    obtain ⟨t', e1, e2, e3, e4, e5, e6, e7⟩ := BeeKem.new_ok id pk
    rw [ht] at e1
    cases e1
    have hget : ∀ z, AMap.get (AMap.insert ([] : AMap Nat SOp) (H op) op) z = if z = H op then some op else none := by
      intro z; rw [AMap.get_insert]; rfl
    have hone : ∀ z o, AMap.get (AMap.insert ([] : AMap Nat SOp) (H op) op) z = some o → z = H op := by
      intro z o hz
      rw [hget] at hz
      split at hz
      · assumption
      · simp at hz
    have hno : ∀ k m s, ¬ BeeKem.Sole t (k + 1) m s := fun k m s hs => absurd (e7 _) (BeeKem.inner_of_has hs.has)
    refine ⟨?_, fun k m s hs => absurd hs (hno k m s), fun _ _ _ _ _ k m hs => absurd hs (hno k m _)⟩
    intro m s hm
    obtain ⟨l, h1, h2⟩ := has_leaf.1 hm
    obtain ⟨n, ps, hp⟩ := hp
    have hid := e2.back m l h1
    rw [e6] at h1
    split at h1
    · cases h1
      simp only [NodeKey.share.injEq] at h2
      refine ⟨H op, op, id, AMap.get_insert_self _ _ _, by rw [hp]; rfl,
        by rw [hp, h2]; simp [Payload.own], hid, ?_⟩
      intro z o hz hyz
      have hz := hone z o hz
      subst hz
      exact (sc.graph.noLoop hyz).elim
    · simp at h1

/-! ## After updates made at the same time -/

open BeeKem (Good lf ver Top holds_nil made_holds below_top keyD_single)

theorem sole_unskipped {t : BeeKem} {k m : Nat} {s : Sk} (h : BeeKem.Sole t (k + 1) m s) : t.skipD (k + 1) m = false := by
  unfold BeeKem.Sole BeeKem.keyD at h
  simp only at h
  cases hst : t.innerD (TreeMath.nodeInner k m) with
  | none => simp [hst] at h
  | some st =>
    simp only [hst, Option.bind_some] at h
    have hn : st.nodeKey = .ok (.share ⟨s⟩) := by
      cases hn : st.nodeKey with
      | error e => simp [hn, Except.toOption] at h
      | ok nk => simpa [hn, Except.toOption] using h
    have := congrArg List.length (nodeKey_share hn)
    simp only [List.length_map, List.length_singleton] at this
    simp [BeeKem.skipD, hst, SecretStore.hasConflict, this]

theorem like_sole {t t' : BeeKem} {k m : Nat} {s : Sk} (h : BeeKem.Like t t' k m) : BeeKem.Sole t k m s ↔ BeeKem.Sole t' k m s := by
  rcases h with h | ⟨h0, h1, h2⟩
  · unfold BeeKem.Sole; rw [h.key]
  · obtain ⟨k, rfl⟩ : ∃ j, k = j + 1 := ⟨k - 1, by omega⟩
    constructor
    · intro hs; rw [sole_unskipped hs] at h1; simp at h1
    · intro hs; rw [sole_unskipped hs] at h2; simp at h2

theorem like_soleBelow {t t' : BeeKem} {k m : Nat} {s : Sk} (h : BeeKem.LikeBelow t t' k m) (hs : BeeKem.SoleBelow t k m s) :
    BeeKem.SoleBelow t' k m s := by
  obtain ⟨k', m', h1, h2, h3⟩ := hs
  exact ⟨k', m', h1, h2, (like_sole (h k' m' h1 h2)).1 h3⟩

section
variable {H : SOp → Nat} (hH : Function.Injective H)
include hH

/-- From right after the last addition or removal to the tree with all updates since. -/
theorem safe_joined {c w : Cgka} (hc : Trusted H c) (T : TogetherG c.graph) (hf : FreshG c.graph) {R : Nat} (hR : LastC c.graph R)
    (hw : Trusted H w) (hh : w.graph.heads = [R]) (hwc : KnownIn w.graph c.graph) {h : Nat} (sv : BeeKem.SInv w.tree h) (gv : Good w.tree)
    (hS : Safe w.graph w.tree) : ∀ r, rebuilt H c.originalMember c.initAddOp c.graph = .ok r → Safe c.graph r.tree := by
  intro r hr
  have sc := reachOk_inv hH (trusted_ok hc)
  have sw := reachOk_inv hH (trusted_ok hw)
  have hsub := sub_of_known hH sw.graph sc.graph hwc
  obtain ⟨r', e1, e2⟩ := comes hH hc T hR hw hh sv gv hc (fun _ h => h) hR.change.known
  rw [hr] at e1
  cases e1
  obtain ⟨A, hA, hold⟩ := e2.holds
  have hu : ∀ x, AMap.get c.graph.ops x ≠ none ∧ TransGen c.graph.Pred R x → Update c.graph R w.tree h x := by
    rintro x ⟨hx1, hx2⟩
    exact update_of hH hc T hR hc (fun _ h => h) (fun m' hm' hk' hRm' _ => comes hH hc T hR hw hh sv gv hm' hk' hRm') hx1 hx2
  have ap := apart_of hH hc T hw hh hwc (U := fun x => AMap.get c.graph.ops x ≠ none ∧ TransGen c.graph.Pred R x)
    (fun x hx => hx.2) hu
  have uA : ∀ j ∈ A, AMap.get c.graph.ops j ≠ none ∧ TransGen c.graph.Pred R j := fun j hj => (hA j).1 hj
  have uP : ∀ j ∈ A, ∀ x ∈ (sent c.graph R j).past, x ∈ A := by
    intro j hj x hx
    obtain ⟨h1, h2⟩ := (sent_past sc.graph).1 hx
    exact (hA x).2 ⟨(past_agree hH sc.graph sc.graph (uA j hj).1 h2).1, h1⟩
  -- an update since
  have upd : ∀ j ∈ A, ∃ o pc ps, AMap.get c.graph.ops j = some o ∧ o.payload = .update (sent c.graph R j).who pc ps ∧
      (sent c.graph R j).pc = pc := by
    intro j hj
    obtain ⟨o, id, pc, ps, h1, h2⟩ := hR.update sc.graph (uA j hj).2
    have := updateAt_of h1 h2
    refine ⟨o, pc, ps, h1, ?_, ?_⟩
    · rw [h2]; show _ = Payload.update (updateAt c.graph j).1 pc ps; rw [this]
    · show (updateAt c.graph j).2 = pc; rw [this]
  -- a later operation that renews `id`
  have later : ∀ {y z o id}, AMap.get c.graph.ops z = some o → o.payload.Renews id → TransGen c.graph.Pred y z →
      (AMap.get w.graph.ops z = some o ∧ TransGen w.graph.Pred y z) ∨
      (z ∈ A ∧ (sent c.graph R z).who = id ∧ AMap.get w.tree.idToLeafIdx id = some (lf (sent c.graph R) z)) := by
    intro y z o id hz hn hyz
    have hzk : AMap.get c.graph.ops z ≠ none := by rw [hz]; simp
    have inW : z = R ∨ TransGen c.graph.Pred z R → AMap.get w.graph.ops z = some o ∧ TransGen w.graph.Pred y z := by
      intro h0
      have hzw : AMap.get w.graph.ops z ≠ none := by
        rcases h0 with rfl | h0
        · exact head_known sw.graph hh
        · exact (past_agree hH sw.graph sc.graph (head_known sw.graph hh) h0).1
      refine ⟨?_, (past_agree hH sw.graph sc.graph hzw hyz).2⟩
      rw [ops_agree hH sw.graph sc.graph hzw hzk, hz]
    rcases hR.cut T hzk with h0 | h0
    · exact .inl (inW h0)
    · right
      have hzA := (hA z).2 ⟨hzk, h0⟩
      obtain ⟨o', pc, ps, q1, q2, _⟩ := upd z hzA
      rw [hz] at q1
      cases q1
      rw [q2] at hn
      have hn : (sent c.graph R z).who = id := hn
      refine ⟨hzA, hn, ?_⟩
      rw [← hn]
      exact (hu z (uA z hzA)).valid.who
  -- what was current and has no update at its leaf since stays current
  have stays : ∀ {y id i}, CurrentG w.graph y id → AMap.get w.tree.idToLeafIdx id = some i → (∀ j ∈ A, lf (sent c.graph R) j ≠ i) →
      CurrentG c.graph y id := by
    intro y id i hcur hid hno z o hz hyz hn
    rcases later hz hn hyz with ⟨h1, h2⟩ | ⟨h1, _, h2⟩
    · exact hcur z o h1 h2 hn
    · rw [hid] at h2
      exact hno z h1 (Option.some.inj h2).symm
  -- the latest update below a node is current
  have latest : ∀ {k m j}, Top (sent c.graph R) A k m j → CurrentG c.graph j (sent c.graph R j).who := by
    intro k m j ht z o hz hjz hn
    have hjA := ht.1
    rcases later hz hn hjz with ⟨h1, h2⟩ | ⟨h1, h2, h3⟩
    · have hjw : AMap.get w.graph.ops j ≠ none := by
        obtain ⟨q, hq, _⟩ := TransGen.head'_iff.1 h2
        exact (sw.graph.known_pred hq).1
      rcases head_all sw.graph hh hjw with e | e
      · exact acyc sc.graph (e ▸ (uA j hjA).2)
      · exact acyc sc.graph ((uA j hjA).2.trans (trans_up hH sw.graph sc.graph hwc e))
    · have hlf : lf (sent c.graph R) z = lf (sent c.graph R) j := by
        have := (hu j (uA j hjA)).valid.who
        rw [h3] at this
        exact Option.some.inj this
      refine ht.2.2 z h1 (by rw [hlf]; exact ht.2.1) ((sent_past sc.graph).2 ⟨(uA j hjA).2, hjz⟩)
  have like0 : ∀ {k m}, (∀ j ∈ A, lf (sent c.graph R) j / 2 ^ k ≠ m) → BeeKem.LikeBelow w.tree r.tree k m := by
    intro k m hno
    refine (holds_nil (S := sent c.graph R) (h := h) w.tree).likeBelow ap sv sv.shape e2.sinv.shape hold (by simp) (by simp) ?_
    intro x hx
    simp only [List.not_mem_nil, false_iff]
    exact fun hxA => hno x hxA hx
  have hlt : ∀ {k m s}, BeeKem.Sole r.tree (k + 1) m s → k < h := fun hs =>
    (BeeKem.nodeInner_lt.1 (BeeKem.innerD_lt e2.sinv.shape (BeeKem.inner_of_has hs.has))).1
  refine ⟨?_, ?_, ?_⟩
  · intro m s hm
    obtain ⟨l, h1, h2⟩ := has_leaf.1 hm
    rcases hold.leaf m with ⟨a1, a2⟩ | ⟨j, a1, a2⟩
    · rw [a2] at h1
      obtain ⟨y, o, id, b1, b2, b3, b4, b5⟩ := hS.leaf m s (has_leaf.2 ⟨l, h1, h2⟩)
      exact ⟨y, o, id, hsub _ _ b1, b2, b3, by rw [e2.ids]; exact b4, stays b5 b4 a1⟩
    · rw [h1] at a2
      cases a2
      obtain ⟨o, pc, ps, q1, q2, q3⟩ := upd j a1.1
      refine ⟨j, o, (sent c.graph R j).who, q1, by rw [q2]; rfl, ?_, ?_, latest a1⟩
      · rw [q2]
        simp only [q3] at h2
        simp [Payload.own, h2, NodeKey.keys]
      · rw [e2.ids, (hu j (uA j a1.1)).valid.who]
        have := a1.2.1
        simp only [Nat.pow_zero, Nat.div_one] at this
        rw [this]
  · intro k m s hm
    have hk := hlt hm
    rcases hold.inner k m hk with ⟨a1, a2⟩ | ⟨js, a0, a1, a2, a3⟩
    · have hm' := (like_sole (like0 a1).self).2 hm
      obtain ⟨y, o, id, i, b1, b2, b3, b4, b5, b6⟩ := hS.inner k m s hm'
      refine ⟨y, o, id, i, hsub _ _ b1, b2, b3, by rw [e2.ids]; exact b4, b5, stays b6 b4 ?_⟩
      intro j hj hji
      exact a1 j hj (by rw [hji]; exact b5)
    · have hne := sole_unskipped hm
      match js, a0, a1, a2, a3 with
      | [], a0, _, _, _ => exact absurd rfl a0
      | j :: j2 :: more, _, _, _, a3 => simp [BeeKem.skipD, a3, SecretStore.hasConflict] at hne
      | [j], _, _, a2, a3 =>
        have hj := (a2 j).1 (by simp)
        obtain ⟨o, pc, ps, q1, q2, q3⟩ := upd j hj.1
        refine ⟨j, o, (sent c.graph R j).who, lf (sent c.graph R) j, q1, by rw [q2]; rfl, ?_, ?_, hj.2.1, latest hj⟩
        · obtain ⟨o', id, pc', ps', r1, r2, r3⟩ := (hu j (uA j hj.1)).vers
          rw [q1] at r1
          cases r1
          have hs : s = (ver (sent c.graph R) j k).pk.of := by
            have := keyD_single a3
            have hm : r.tree.keyD (k + 1) m = some (.share ⟨s⟩) := hm
            rw [hm] at this
            simp only [Option.some.injEq, NodeKey.share.injEq] at this
            rw [← this]
          rw [r2, hs]
          obtain ⟨q, hq, hv⟩ := List.mem_flatMap.1 (r3 k hk)
          exact List.mem_flatMap.2 ⟨q, hq, List.mem_map_of_mem hv⟩
        · rw [e2.ids]; exact (hu j (uA j hj.1)).valid.who
  · intro y o hy e he k m hm
    have hk := hlt hm
    have hmd := (cipher_facts ((trusted_clean hH hc).ops y o hy) he).2.2.1
    rcases hold.inner k m hk with ⟨a1, a2⟩ | ⟨js, a0, a1, a2, a3⟩
    · have hm' := (like_sole (like0 a1).self).2 hm
      obtain ⟨y', o', id, i, b1, b2, b3, b4, b5, b6⟩ := hS.inner k m _ hm'
      have := (hf.1 y y' o o' _ hy (hsub _ _ b1) hmd).1 b3
      subst this
      have ho := hsub _ _ b1
      rw [hy] at ho
      cases ho
      obtain ⟨a, b, d1, d2, d3⟩ := hS.pos y o b1 e he k m hm'
      exact ⟨a, b, d1, like_soleBelow (like0 a1) d2, d3.imp (like_soleBelow (like0 a1)) (fun h => h)⟩
    · have hne := sole_unskipped hm
      match js, a0, a1, a2, a3 with
      | [], a0, _, _, _ => exact absurd rfl a0
      | j :: j2 :: more, _, _, _, a3 => simp [BeeKem.skipD, a3, SecretStore.hasConflict] at hne
      | [j], _, _, a2, a3 =>
        have hj := (a2 j).1 (by simp)
        have uj := uA j hj.1
        obtain ⟨oj, pc, ps, q1, q2, q3⟩ := upd j hj.1
        obtain ⟨T0, T', b1, b2, b3, b4, b5, b6, b7, σ, s1, s2, s3⟩ := (hu j uj).before
        have hT := made_holds ap sv b1 b2 b3 b4 (fun x hx => uA x (uP j hj.1 x hx)) (fun x hx => (hu x (uA x (uP j hj.1 x hx))).valid)
          uj (hu j uj).valid b5
        have hb := below_top ap uA (hu j uj).valid (fun x hx => by simpa using (a2 x).2 hx)
        have hlk : BeeKem.LikeBelow T' r.tree (k + 1) m := by
          refine hT.likeBelow ap sv b6.shape e2.sinv.shape hold ?_ ?_ ?_
          · intro x hx
            rcases List.mem_cons.1 hx with rfl | hx
            · exact uA _ hj.1
            · exact uA x (uP j hj.1 x hx)
          · intro x hx
            rcases List.mem_cons.1 hx with rfl | hx
            · exact (hu _ uj).valid
            · exact (hu x (uA x (uP j hj.1 x hx))).valid
          · intro x hx
            constructor
            · intro hx'
              rcases List.mem_cons.1 hx' with rfl | hx'
              · exact hj.1
              · exact uP j hj.1 x hx'
            · intro hxA
              rcases hb x hxA hx with rfl | hx'
              · simp
              · exact List.mem_cons_of_mem _ hx'
        have hpl : e.plain = σ k := by
          have h1 := s1 k hk
          rw [hj.2.1] at h1
          have h2 := (like_sole hlk.self).2 hm
          have h1 : T'.keyD (k + 1) m = some (.share ⟨σ k⟩) := h1
          have h2 : T'.keyD (k + 1) m = some (.share ⟨e.plain⟩) := h2
          rw [h1] at h2
          simpa using h2.symm
        have hpay : oj.payload.made = (List.range h).map σ ∧
            (Payload.update (sent c.graph R j).who (sent c.graph R j).pc []).ciphers = oj.payload.ciphers ∧
            (Payload.update (sent c.graph R j).who (sent c.graph R j).pc []).brought = oj.payload.brought := by
          rw [q2, ← q3]
          exact ⟨s2, rfl, rfl⟩
        have hin : e.plain ∈ oj.payload.made := by
          rw [hpay.1, hpl]
          exact List.mem_map.2 ⟨k, by simpa using hk, rfl⟩
        have := (hf.1 y j o oj _ hy q1 hmd).1 hin
        subst this
        rw [hy] at q1
        cases q1
        obtain ⟨l, hl, t1, a, b, t2, t3, t4⟩ := s3 e (by rw [hpay.2.1]; exact he)
        have hlk' : l = k := by
          have hnd := hf.2 y o hy
          rw [hpay.1] at hnd
          exact List.inj_on_of_nodup_map hnd (by simpa using hl) (by simpa using hk) (t1.symm.trans hpl)
        subst hlk'
        rw [hj.2.1] at t3 t4
        exact ⟨a, b, t2, like_soleBelow hlk t3, t4.imp (like_soleBelow hlk) (fun h => by rw [← hpay.2.2]; exact h)⟩

/-- The tree that a replay gives. -/
theorem safe_together {c : Cgka} (hc : Trusted H c) (T : TogetherG c.graph) (hf : FreshG c.graph) :
    ∀ r, rebuilt H c.originalMember c.initAddOp c.graph = .ok r → Safe c.graph r.tree := by
  generalize hn : (opSet c.graph).card = n
  induction n using Nat.strongRecOn generalizing c with
  | _ n ih =>
    have sc := reachOk_inv hH (trusted_ok hc)
    obtain ⟨R, hR⟩ := lastC_exists sc T
    obtain ⟨w, v1, v2, v3, v4⟩ := trusted_maker hH hc R hR.change.known
    have sw := reachOk_inv hH (trusted_ok v1)
    have hstrong := last_strong hH hc T (fun m hm hk _ => joins hH hm (T.sub hH (reachOk_inv hH (trusted_ok hm)).graph sc.graph hk)) hR v1 v2
    obtain ⟨h, sv, gv⟩ := hstrong
    refine safe_joined hH hc T hf hR v1 v2 v3 sv gv ?_
    rcases v4 with ⟨id, pk, op, hfst, hnew, hx⟩ | ⟨m, op, t, hm, hmk, hg, hx⟩
    · exact safe_new hH hfst hnew
    · have sm := reachOk_inv hH (trusted_ok hm)
      obtain ⟨k1, k2, k3, k4, k5, k6⟩ := maker_lt hH sw sm hg hmk v3
      have Tm := T.sub hH sm.graph sc.graph k1
      have hRop : AMap.get c.graph.ops R = some op := by
        rw [hx]
        exact sub_of_known hH sw.graph sc.graph v3 _ _ k4
      obtain ⟨o, ho, hs⟩ := hR.change
      rw [hRop] at ho
      cases ho
      obtain ⟨r, e1, e2, -⟩ := joins hH hm Tm
      obtain ⟨r', e3, e4⟩ := settled_tree hH hm (together_oneRoot hH hm Tm) hmk.settled
      rw [e1] at e3
      cases e3
      have hSm := ih _ (hn ▸ k5) hm Tm (hf.sub hH sm.graph sc.graph k1) rfl r e1
      rw [e4] at hSm e2
      have hgr : Grown m.graph w.graph (H op) op := by
        rw [hg]
        exact grown_of hH sm.graph (by rw [← hg]; exact sw.graph) (fun x hx => (hmk.preds x).2 hx)
      have htr := hmk.tree
      unfold treeOp at htr
      cases hp : op.payload with
      | update id pc ps => rw [hp] at hs; simp [Payload.isStructural] at hs
      | remove id i ks ps =>
        rw [hp] at htr
        dsimp only at htr
        cases hrm : t.removeId id with
        | error e => rw [hrm] at htr; simp [bind, Except.bind] at htr
        | ok p =>
          rw [hrm] at htr
          simp only [bind, Except.bind, pure, Except.pure, Except.ok.injEq] at htr
          obtain ⟨t', x, rk⟩ := p
          rw [← htr]
          exact safe_remove e2 hSm hgr hp hrm
      | add id pk i ps qs =>
        rw [hp] at htr
        dsimp only at htr
        have hids := ids_same hH hm Tm (by
          intro m' hm' hk'
          obtain ⟨r, a1, _, a3⟩ := joins hH hm' (Tm.sub hH (reachOk_inv hH (trusted_ok hm')).graph sm.graph hk')
          exact ⟨r, a1, a3⟩) r e1
        have hab := hmk.absent _ _ _ _ _ hp
        cases hps : t.pushLeaf id (.share pk) with
        | error e => rw [hps] at htr; simp [bind, Except.bind] at htr
        | ok p =>
          rw [hps] at htr
          simp only [bind, Except.bind, pure, Except.pure, Except.ok.injEq] at htr
          obtain ⟨t', x⟩ := p
          rw [← htr]
          rw [e4] at hids
          refine safe_add e2 hSm hgr hp ?_ hps
          unfold BeeKem.containsId at hab ⊢
          rw [← hids]
          exact hab

/-- Secrets that are out of date for `w`, or not known to it, do not lead to the only secret of a node of its tree, whatever others have published since. -/
theorem outdated_secrecy {c w : Cgka} (hc : Trusted H c) (hw : Trusted H w) (T : TogetherG w.graph) (hl : w.graph.heads.length = 1)
    (hk : ∀ y, Knows w y → Knows c y) (hf : FreshKeys c) (hd : DistinctKeys c) {K : Sk → Prop}
    (hK : ∀ s, K s → ∀ y o, AMap.get w.graph.ops y = some o → s ∈ o.payload.brought ∨ s ∈ o.payload.made → Outdated w y) {s : Sk}
    (h : Spec.Derivable K (published c) s) :
    (∀ k m, ¬ BeeKem.Sole w.tree k m s) ∧ ∀ y o, AMap.get w.graph.ops y = some o → s ∈ o.payload.brought → Outdated w y := by
  have sc := reachOk_inv hH (trusted_ok hc)
  have sw := reachOk_inv hH (trusted_ok hw)
  have hsub : ∀ y, AMap.get w.graph.ops y ≠ none → AMap.get c.graph.ops y ≠ none := by
    intro y hy; exact (knows_iff c y).1 (hk y ((knows_iff w y).2 hy))
  have up : ∀ {x o}, AMap.get w.graph.ops x = some o → AMap.get c.graph.ops x = some o := by
    intro x o hx
    have hn : AMap.get w.graph.ops x ≠ none := by rw [hx]; simp
    rw [← ops_agree hH sw.graph sc.graph hn (hsub x hn), hx]
  have hfw : FreshG w.graph := FreshG.sub hH sw.graph sc.graph hsub ⟨hf, hd⟩
  have hS : Safe w.graph w.tree := by
    obtain ⟨r, e1, e2⟩ := (sw.settled hl).rebuilt sw.graph (together_oneRoot hH hw T) (trusted_tidy hH hw) sw.root.1 (root_preds sw)
    have := safe_together hH hw T hfw r e1
    rw [e2] at this
    exact this
  -- what a current operation gave is not out of date
  have hcur : ∀ {y o id}, AMap.get w.graph.ops y = some o → o.payload.GivesTo id → CurrentG w.graph y id → ¬ Outdated w y := by
    rintro y o id hy hg hc ⟨o1, id1, z, o2, h1, h2, h3, h4, h5⟩
    rw [hy] at h1
    cases h1
    have : id1 = id := by
      cases hp : o.payload <;> rw [hp] at hg h2 <;> simp only [Payload.GivesTo] at hg h2
      · exact h2.symm.trans hg
      · exact h2.symm.trans hg
    subst this
    exact hc z o2 h3 ((before_iff sw.graph y z).1 h5) h4
  induction h with
  | @known s hs =>
    refine ⟨?_, fun y o hy hb => hK _ hs y o hy (.inl hb)⟩
    intro k m hm
    cases k with
    | zero =>
      obtain ⟨y, o, id, a1, a2, a3, a4, a5⟩ := hS.leaf m s hm
      exact hcur a1 a2 a5 (hK s hs y o a1 (.inl (Payload.own_brought a3)))
    | succ k =>
      obtain ⟨y, o, id, j, a1, a2, a3, a4, a5, a6⟩ := hS.inner k m s hm
      exact hcur a1 a2 a6 (hK s hs y o a1 (.inr a3))
  | @opened e a b he hda hkey ih =>
    obtain ⟨y, oy, hy, hpe⟩ := published_iff.1 he
    have hmd := (cipher_facts ((trusted_clean hH hc).ops y oy hy) hpe).2.2.1
    refine ⟨?_, fun z oz hz hb => absurd hb (hf y z oy oz _ hy (up hz) hmd).2⟩
    intro k m hm
    cases k with
    | zero =>
      obtain ⟨z, o, id, a1, a2, a3, a4, a5⟩ := hS.leaf m _ hm
      exact (hf y z oy o _ hy (up a1) hmd).2 (Payload.own_brought a3)
    | succ k =>
      obtain ⟨z, o, id, j, a1, a2, a3, a4, a5, a6⟩ := hS.inner k m _ hm
      have := (hf y z oy o _ hy (up a1) hmd).1 a3
      subst this
      have ho := up a1
      rw [hy] at ho
      cases ho
      obtain ⟨a', b', b1, ⟨_, _, _, _, b2⟩, b3⟩ := hS.pos y oy a1 e hpe k m hm
      rcases BeeKem.derive_cases (hkey.symm.trans b1) with rfl | rfl
      · exact ih.1 _ _ b2
      · rcases b3 with ⟨_, _, _, _, b3⟩ | b3
        · exact ih.1 _ _ b3
        · exact hcur a1 a2 a6 (ih.2 y oy a1 b3)

end

theorem fresh_down {H : SOp → Nat} (hH : Function.Injective H) {c w : Cgka} (hc : Trusted H c) (hw : Trusted H w)
    (hk : ∀ y, Knows w y → Knows c y) (hf : FreshKeys c) : FreshKeys w := by
  have sc := reachOk_inv hH (trusted_ok hc)
  have sw := reachOk_inv hH (trusted_ok hw)
  have up := sub_of_known hH sw.graph sc.graph (fun y hy => (knows_iff c y).1 (hk y ((knows_iff w y).2 hy)))
  intro x y ox oy s hx hy
  exact hf x y ox oy s (up _ _ hx) (up _ _ hy)

/-- The secret of a root without a conflict. -/
theorem root_sole {t : BeeKem} {h : Nat} (hf : BeeKem.Fit t h) {s : Sk}
    (hs : t.nodeKeyForIndex (TreeMath.root t.treeSize) = .ok (.share ⟨s⟩)) : ∃ k m, BeeKem.Sole t k m s := by
  obtain ⟨j, hj⟩ : ∃ j, h = j + 1 := ⟨h - 1, by have := hf.shape.pos; omega⟩
  rw [hf.shape.size, hj, BeeKem.root_eq] at hs
  unfold BeeKem.nodeKeyForIndex at hs
  simp only [bind, Except.bind] at hs
  split at hs
  · simp at hs
  · rename_i o ho
    split at hs
    · simp at hs
    · rename_i st
      unfold BeeKem.innerNode at ho
      split at ho
      · simp at ho
      · rename_i hq
        cases ho
        obtain ⟨k, m, hkm⟩ := BeeKem.exists_nodeInner (TreeMath.nodeInner j 0)
        rw [hkm] at hq
        refine ⟨k + 1, m, ?_⟩
        simp [BeeKem.Sole, BeeKem.keyD, BeeKem.innerD, hq, hs, Except.toOption]

theorem rootSecret_sole {t : BeeKem} {s : Sk} (h : Spec.RootSecret t s) : ∃ k m, BeeKem.Sole t k m s := by
  obtain ⟨j, st, v, _, h2, h3, h4⟩ := h
  obtain ⟨k, m, rfl⟩ := BeeKem.exists_nodeInner j
  have : t.innerD (TreeMath.nodeInner k m) = some ⟨[v]⟩ := by
    unfold BeeKem.innerD
    rw [h2]
    cases st
    simp only at h3
    rw [h3]
    rfl
  refine ⟨k + 1, m, ?_⟩
  unfold BeeKem.Sole
  rw [keyD_single this, h4]

/-- Whoever writes has a single last operation. -/
theorem encrypt_head {H : SOp → Nat} {a a' : Cgka} {sign : Payload → Res SOp} {g : BeeKem.Gen} {n r ps : Nat} {s : AppSecret} {op : Option SOp}
    (he : a.newAppSecretFor H sign g n r ps = (a', .ok (s, op))) : a'.graph.heads.length = 1 := by
  have hfin : ∀ (c : Cgka) (k : Sk) (o : Option SOp), c.finishAppSecret k o r ps = (a', .ok (s, op)) → a' = c := by
    intro c k o hf
    unfold Cgka.finishAppSecret at hf
    split at hf
    · simp at hf
    · simp only [Prod.mk.injEq, Except.ok.injEq] at hf
      exact hf.1.symm
  have hroot : a.hasPcsKey = .ok true → a.graph.heads.length = 1 := by
    intro h
    unfold Cgka.hasPcsKey at h
    cases hq : a.tree.hasRootKey with
    | error e => rw [hq] at h; simp [bind, Except.bind] at h
    | ok b =>
      rw [hq] at h
      simp only [bind, Except.bind, pure, Except.pure, Except.ok.injEq, Bool.and_eq_true] at h
      simpa [Graph.hasSingleHead] using h.1.2
  unfold Cgka.newAppSecretFor at he
  split at he
  · simp at he
  · split at he
    · simp at he
    · rename_i c1 k o hq
      have hlen : c1.graph.heads.length = 1 := by
        unfold Cgka.update at hq
        split at hq
        · simp at hq
        · split at hq
          · simp at hq
          · dsimp only at hq
            split at hq
            · simp at hq
            · split at hq
              · simp at hq
              · simp only [Prod.mk.injEq] at hq
                rw [← hq.1]
                rfl
      rw [hfin _ _ _ he]
      exact hlen
  · rename_i hp
    split at he
    · simp at he
    · rename_i c1 k hr
      have ht : c1.graph = a.graph := by
        have := (treeRoot_tg hr).1
        simp only [tg, Prod.mk.injEq] at this
        exact this.2
      have hl := hroot hp
      rw [← ht] at hl
      split at he
      · rw [hfin _ _ _ he]; exact hl
      · split at he
        · rw [hfin _ _ _ he]; exact hl
        · rw [hfin _ _ _ he]; exact hl

end Verif.Cgka
