import Verif.Cgka.GainSpec
import Verif.Cgka.SecrecyLemmas
import Verif.BeeKem.Boxes

/-! # Helper lemmas: a replica holds nothing that cannot be worked out from its device's secrets and what is published -/

namespace Verif.Cgka

open Verif.BeeKem

/-- The ciphertexts of the tree satisfy `P`; the keys and group secrets held satisfy `D`. -/
structure Holds (P : EncryptedSecret → Prop) (D : Sk → Prop) (c : Cgka) : Prop where
  boxes : c.tree.Boxes P
  keys : Secrets D c.ownerSks
  pcs : Secrets D c.pcsKeys

variable {H : SOp → Nat} {P P' : EncryptedSecret → Prop} {D D' : Sk → Prop} {c c' r : Cgka} {k : Sk}

theorem Holds.mono (h : Holds P D c) (hp : ∀ e, P e → P' e) (hd : ∀ s, D s → D' s) : Holds P' D' c :=
  ⟨h.boxes.mono hp, h.keys.mono hd, h.pcs.mono hd⟩

theorem Holds.congr (h : Holds P D c) (ht : c'.tree = c.tree) (hk : c'.ownerSks = c.ownerSks) (hp : c'.pcsKeys = c.pcsKeys) :
    Holds P D c' := ⟨by rw [ht]; exact h.boxes, by rw [hk]; exact h.keys, by rw [hp]; exact h.pcs⟩

theorem treeOp_boxes {t t' : BeeKem} {op : SOp} (ht : t.Boxes P) (ho : ∀ e ∈ op.payload.ciphers, P e) (h : treeOp t op = .ok t') :
    t'.Boxes P := by
  unfold treeOp at h
  split at h
  · simp only [bind, Except.bind] at h
    split at h
    · simp at h
    · rename_i p hp
      obtain ⟨t1, i⟩ := p
      cases h
      exact ht.fewer (BeeKem.pushLeaf_fewer hp)
  · simp only [bind, Except.bind] at h
    split at h
    · simp at h
    · rename_i p hp
      obtain ⟨t1, i⟩ := p
      cases h
      exact ht.fewer (BeeKem.removeId_fewer hp)
  · rename_i id pc ps hpay
    refine BeeKem.applyPath_boxes ht (fun e he => ho e ?_) h
    rw [hpay]
    exact he

theorem Holds.apply {op : SOp} (hc : Holds P D c) (ho : ∀ e ∈ op.payload.ciphers, P e) (h : c.applyOperation H op = .ok c') :
    Holds P D c' := by
  cases hf : AMap.get c.graph.ops (H op) with
  | some o =>
    unfold Cgka.applyOperation at h
    rw [if_pos (by rw [containsOpHash_iff]; simp [hf])] at h
    cases h; exact hc
  | none =>
    rw [applyOperation_eq hf] at h
    cases h1 : treeOp c.tree op with
    | error e => rw [h1] at h; simp [bind, Except.bind] at h
    | ok t =>
      rw [h1] at h
      simp only [bind, Except.bind, pure, Except.pure, Except.ok.injEq] at h
      subst h
      exact ⟨treeOp_boxes hc.boxes ho h1, hc.keys, hc.pcs⟩

theorem Holds.applyOps (l : List SOp) {c c' : Cgka} (hc : Holds P D c) (ho : ∀ o ∈ l, ∀ e ∈ o.payload.ciphers, P e)
    (h : c.applyOps H l = .ok c') : Holds P D c' := by
  induction l generalizing c with
  | nil => cases h; exact hc
  | cons o l ih =>
    unfold Cgka.applyOps at h
    simp only [bind, Except.bind] at h
    split at h
    · simp at h
    · rename_i c1 h1
      exact ih (hc.apply (ho o List.mem_cons_self) h1) (fun q hq => ho q (List.mem_cons_of_mem _ hq)) h

theorem Holds.applyEpoch {l : List SOp} (hc : Holds P D c) (ho : ∀ o ∈ l, ∀ e ∈ o.payload.ciphers, P e)
    (h : c.applyEpoch H l = .ok c') : Holds P D c' := by
  unfold Cgka.applyEpoch at h
  split at h
  · exact hc.applyOps l ho h
  · simp only [bind, Except.bind] at h
    split at h
    · simp at h
    · rename_i c1 h1
      split at h
      · simp at h
      · rename_i t hs
        cases h
        have := hc.applyOps l ho h1
        exact ⟨this.boxes.fewer (BeeKem.sortLeaves_fewer hs), this.keys, this.pcs⟩

theorem Holds.applyEpochs (es : List (List SOp)) {c c' : Cgka} (hc : Holds P D c)
    (ho : ∀ o ∈ es.flatten, ∀ e ∈ o.payload.ciphers, P e) (h : c.applyEpochs H es = .ok c') : Holds P D c' := by
  induction es generalizing c with
  | nil => cases h; exact hc
  | cons e es ih =>
    unfold Cgka.applyEpochs at h
    simp only [bind, Except.bind] at h
    split at h
    · simp at h
    · rename_i c1 h1
      refine ih (hc.applyEpoch (fun o hq => ho o ?_) h1) (fun o hq => ho o ?_) h
      · rw [List.flatten_cons]; exact List.mem_append_left _ hq
      · rw [List.flatten_cons]; exact List.mem_append_right _ hq

theorem Holds.treeRoot (hop : Opens P D) (hc : Holds P D c) (h : c.pcsKeyFromTreeRoot = .ok (c', k)) : Holds P D c' ∧ D k := by
  unfold Cgka.pcsKeyFromTreeRoot at h
  split at h
  · rename_i sks k' hd
    cases h
    obtain ⟨a, b⟩ := BeeKem.decryptTreeSecret_gains hop hc.boxes hc.keys hd
    exact ⟨⟨hc.boxes, a, hc.pcs⟩, b⟩
  · split at h
    · simp at h
    · split at h
      · simp only [bind, Except.bind] at h
        split at h
        · simp at h
        · rename_i p hd
          obtain ⟨sks, k'⟩ := p
          cases h
          obtain ⟨a, b⟩ := BeeKem.decryptTreeSecret_gains hop hc.boxes hc.keys hd
          exact ⟨⟨hc.boxes, a, hc.pcs⟩, b⟩
      · simp at h

theorem Holds.insertPcsKey (hc : Holds P D c) (hk : D k) (x : Nat) : Holds P D (c.insertPcsKey k x) :=
  ⟨hc.boxes, hc.keys, hc.pcs.insert hk⟩

theorem holds_new {id : MemberId} {pk : Pk} {op : SOp} (h : Cgka.newFromInitAdd H id pk op = .ok c) : Holds P D c := by
  unfold Cgka.newFromInitAdd at h
  simp only [bind, Except.bind] at h
  split at h
  · simp at h
  · rename_i t ht
    cases h
    exact ⟨fun s hs => absurd hs (BeeKem.new_fewer ht s), fun p hp => absurd hp List.not_mem_nil, fun p hp => absurd hp List.not_mem_nil⟩

theorem Holds.rebuildStart (hc : Holds P D c) (h : c.rebuildStart H = .ok r) : Holds P D r := by
  unfold Cgka.rebuildStart at h
  simp only [bind, Except.bind] at h
  split at h
  · simp at h
  · rename_i r1 h1
    cases h
    have := holds_new (P := P) (D := D) h1
    exact ⟨this.boxes, hc.keys, this.pcs⟩

theorem Holds.rebuild {es : List (List SOp)} (hop : Opens P D) (hc : Holds P D c) (ho : ∀ o ∈ es.flatten, ∀ e ∈ o.payload.ciphers, P e)
    (h : c.rebuildCgka H es = .ok r) : Holds P D r := by
  unfold Cgka.rebuildCgka at h
  simp only [bind, Except.bind] at h
  split at h
  · simp at h
  · rename_i r0 h0
    split at h
    · simp at h
    · rename_i r1 h1
      have hr1 := (hc.rebuildStart h0).applyEpochs es ho h1
      split at h
      · simp at h
      · split at h
        · split at h
          · simp at h
          · rename_i p hp
            obtain ⟨r2, k⟩ := p
            obtain ⟨a, b⟩ := hr1.treeRoot hop hp
            split at h
            · simp at h
            · cases h
              exact a.insertPcsKey b _
        · cases h; exact hr1

theorem lookupAll_known {g : Graph} {e : CgkaError} {l : List Nat} {os : List SOp} (h : g.lookupAll e l = .ok os) :
    ∀ o ∈ os, ∃ x, AMap.get g.ops x = some o := by
  induction l generalizing os with
  | nil => cases h; simp
  | cons a l ih =>
    unfold Graph.lookupAll at h
    split at h
    · simp at h
    · rename_i o ho
      simp only [bind, Except.bind] at h
      split at h
      · simp at h
      · rename_i os' h'
        cases h
        intro q hq
        rcases List.mem_cons.1 hq with rfl | hq
        · exact ⟨a, ho⟩
        · exact ih h' q hq

theorem lookupEpochs_known {g : Graph} {l : List (List Nat)} {es : List (List SOp)} (h : g.lookupEpochs l = .ok es) :
    ∀ o ∈ es.flatten, ∃ x, AMap.get g.ops x = some o := by
  induction l generalizing es with
  | nil => cases h; simp
  | cons a l ih =>
    unfold Graph.lookupEpochs at h
    simp only [bind, Except.bind] at h
    split at h
    · simp at h
    · rename_i os ho
      split at h
      · simp at h
      · rename_i es' h'
        cases h
        intro q hq
        rw [List.flatten_cons] at hq
        rcases List.mem_append.1 hq with hq | hq
        · exact lookupAll_known ho q hq
        · exact ih h' q hq

theorem sort_ciphers {heads : List Nat} {es : List (List SOp)} (h : c.graph.topsortForHeads heads = .ok es) :
    ∀ o ∈ es.flatten, ∀ e ∈ o.payload.ciphers, e ∈ published c := by
  unfold Graph.topsortForHeads at h
  simp only [bind, Except.bind] at h
  split at h
  · simp at h
  · intro o ho e he
    obtain ⟨x, hx⟩ := lookupEpochs_known h o ho
    exact published_iff.2 ⟨x, o, hx, he⟩

theorem Holds.replay (hop : Opens P D) (hp : ∀ e ∈ published c, P e) (hc : Holds P D c) (h : c.replayIfNeeded H = .ok c') :
    Holds P D c' := by
  unfold Cgka.replayIfNeeded at h
  split at h
  · unfold Cgka.replayOpsGraph at h
    simp only [bind, Except.bind] at h
    split at h
    · simp at h
    · rename_i es hes
      split at h
      · simp at h
      · rename_i r hr
        cases h
        have hr := hc.rebuild hop (fun o ho e he => hp e (sort_ciphers hes o ho e he)) hr
        exact ⟨hr.boxes, hc.keys.foldl _ (fun p hp => hr.keys p hp), hc.pcs.foldl _ (fun p hp => hr.pcs p hp)⟩
  · cases h; exact hc

theorem Holds.derive (hop : Opens P D) (hp : ∀ e ∈ published c, P e) {x : Nat} (hc : Holds P D c) (h : c.derivePcsKeyForOp H x = .ok (c', k)) :
    Holds P D c' ∧ D k := by
  unfold Cgka.derivePcsKeyForOp at h
  split at h
  · simp at h
  · simp only [bind, Except.bind] at h
    split at h
    · simp at h
    · rename_i es hes
      unfold Cgka.rebuildPcsKey at h
      simp only [bind, Except.bind] at h
      split at h
      · simp at h
      · rename_i r0 h0
        split at h
        · simp at h
        · rename_i r1 h1
          have hr1 := (hc.rebuildStart h0).applyEpochs es (fun o ho e he => hp e (sort_ciphers hes o ho e he)) h1
          split at h
          · simp at h
          · rename_i p hpk
            obtain ⟨r2, k'⟩ := p
            obtain ⟨_, b⟩ := hr1.treeRoot hop hpk
            split at h
            · simp at h
            · cases h
              exact ⟨hc.insertPcsKey b _, b⟩

theorem Holds.currentRoot (hop : Opens P D) (hc : Holds P D c) (h : PcsHash) :
    Holds P D (c.currentRootFor h).1 ∧ ∀ k, (c.currentRootFor h).2 = .ok (some k) → D k := by
  unfold Cgka.currentRootFor
  split
  · exact ⟨hc, by simp⟩
  · exact ⟨hc, by simp⟩
  · split
    · split <;> exact ⟨hc, by simp⟩
    · rename_i c' k' hr
      obtain ⟨a, b⟩ := hc.treeRoot hop hr
      refine ⟨a, ?_⟩
      intro k hk
      simp only [Except.ok.injEq] at hk
      split at hk
      · cases hk; exact b
      · cases hk

theorem Holds.fromHashes (hop : Opens P D) (hp : ∀ e ∈ published c, P e) (hc : Holds P D c) (h : PcsHash) (x : Nat) :
    Holds P D (c.pcsKeyFromHashes H h x).1 ∧ ∀ k, (c.pcsKeyFromHashes H h x).2 = .ok k → D k := by
  unfold Cgka.pcsKeyFromHashes
  split
  · rename_i k hk
    refine ⟨hc, ?_⟩
    intro k' hk'
    cases hk'
    exact hc.pcs.get hk
  · obtain ⟨a, b⟩ := hc.currentRoot hop h
    have hx := (Ext.currentRoot c h).graph
    split
    · rename_i c1 e he; rw [he] at a; exact ⟨a, by simp⟩
    · rename_i c1 k he
      rw [he] at a b
      refine ⟨a, ?_⟩
      intro k' hk'
      cases hk'
      exact b k rfl
    · rename_i c1 he
      rw [he] at a hx
      have hp' : ∀ e ∈ published c1, P e := by
        intro e hq
        refine hp e ?_
        unfold published at hq ⊢
        rw [hx] at hq
        exact hq
      split
      · exact ⟨a, by simp⟩
      · rename_i c2 k hd
        obtain ⟨u, v⟩ := a.derive hop hp' hd
        refine ⟨u, ?_⟩
        intro k' hk'
        cases hk'
        exact v

theorem Holds.decrypt (hop : Opens P D) (hp : ∀ e ∈ published c, P e) (hc : Holds P D c) (e : EncContent) :
    Holds P D (c.decryptionKeyFor H e).1 ∧ ∀ k, (c.decryptionKeyFor H e).2 = .ok k → D k.pcs := by
  unfold Cgka.decryptionKeyFor
  obtain ⟨a, b⟩ := hc.fromHashes (H := H) hop hp e.pcsKeyHash e.pcsUpdateOpHash
  split
  · rename_i c1 err he; rw [he] at a; exact ⟨a, by simp⟩
  · rename_i c1 k he
    rw [he] at a b
    refine ⟨?_, ?_⟩
    · dsimp only
      split
      · exact a
      · exact a.insertPcsKey (b k rfl) _
    · intro k' hk'
      cases hk'
      exact b k rfl

/-! ## Growing records -/

/-- What a device with the secrets `K` holds at a replica, given what is published there. -/
def Gained (K : Sk → Prop) (c : Cgka) : Prop :=
  Holds (fun e => e ∈ published c ∨ K e.plain) (Spec.Derivable K (published c)) c

theorem derivable_mono {K : Sk → Prop} {pub pub' : List EncryptedSecret} (h : ∀ e ∈ pub, e ∈ pub') {s : Sk}
    (hd : Spec.Derivable K pub s) : Spec.Derivable K pub' s := by
  induction hd with
  | known h => exact .known h
  | opened he _ hk ih => exact .opened (h _ he) ih hk

theorem opens_derivable (K : Sk → Prop) (pub : List EncryptedSecret) :
    Opens (fun e => e ∈ pub ∨ K e.plain) (Spec.Derivable K pub) := by
  rintro e (he | he) a b ha hk
  · exact .opened he ha hk
  · exact .known he

/-- From a state with a smaller record. -/
theorem Gained.of {K : Sk → Prop} {pub : List EncryptedSecret} (hs : ∀ e ∈ pub, e ∈ published c')
    (h : Holds (fun e => e ∈ pub ∨ K e.plain) (Spec.Derivable K pub) c') : Gained K c' :=
  h.mono (fun e he => he.imp_left (hs e)) (fun _ hd => derivable_mono hs hd)

theorem published_congr (h : c'.graph = c.graph) : published c' = published c := by
  unfold published; rw [h]

theorem Gained.same {K : Sk → Prop} (hx : c'.graph = c.graph)
    (h : Holds (fun e => e ∈ published c ∨ K e.plain) (Spec.Derivable K (published c)) c') : Gained K c' :=
  .of (fun e he => by rw [published_congr hx]; exact he) h

theorem published_addLocal (hH : Function.Injective H) (hg : GInv H c.graph) {op : SOp} (h : c'.graph = c.graph.addLocalOp H op) :
    (∀ e ∈ published c, e ∈ published c') ∧ ∀ e ∈ op.payload.ciphers, e ∈ published c' := by
  constructor
  · intro e he
    obtain ⟨y, o, hy, ho⟩ := published_iff.1 he
    exact published_iff.2 ⟨y, o, by rw [h]; exact addLocal_keeps hH hg op hy, ho⟩
  · intro e he
    refine published_iff.2 ⟨H op, op, ?_, he⟩
    rw [h]
    show AMap.get (AMap.insert c.graph.ops (H op) op) (H op) = some op
    rw [AMap.get_insert_self]

theorem published_addOp {op : SOp} (hf : AMap.get c.graph.ops (H op) = none) (h : c'.graph = c.graph.addOp H op op.payload.preds) :
    (∀ e ∈ published c, e ∈ published c') ∧ ∀ e ∈ op.payload.ciphers, e ∈ published c' := by
  constructor
  · intro e he
    obtain ⟨y, o, hy, ho⟩ := published_iff.1 he
    refine published_iff.2 ⟨y, o, ?_, ho⟩
    rw [h]
    show AMap.get (AMap.insert c.graph.ops (H op) op) y = some o
    rw [AMap.get_insert]
    split
    · rename_i he'; rw [he', hf] at hy; simp at hy
    · exact hy
  · intro e he
    refine published_iff.2 ⟨H op, op, ?_, he⟩
    rw [h]
    show AMap.get (AMap.insert c.graph.ops (H op) op) (H op) = some op
    rw [AMap.get_insert_self]

theorem Gained.add {K : Sk → Prop} (hH : Function.Injective H) (hi : GInv H c.graph) (hc : Gained K c) (sign : Payload → Res SOp)
    (id : MemberId) (pk : Pk) : Gained K (c.add H sign id pk).1 := by
  unfold Cgka.add
  split
  · exact hc
  · split
    · exact hc
    · rename_i c1 hr
      have hx := (Ext.replayIfNeeded hr).graph
      have h1 := hc.replay (opens_derivable K _) (fun e he => .inl he) hr
      split
      · exact .same hx h1
      · rename_i t i hp
        have h2 : Holds (fun e => e ∈ published c ∨ K e.plain) (Spec.Derivable K (published c)) ({ c1 with tree := t } : Cgka) :=
          ⟨h1.boxes.fewer (BeeKem.pushLeaf_fewer hp), h1.keys, h1.pcs⟩
        dsimp only
        split
        · exact .same hx h2
        · rename_i op ho
          exact .of (published_addLocal (op := op) hH hi (by rw [← hx])).1 (h2.congr rfl rfl rfl)

theorem Gained.remove {K : Sk → Prop} (hH : Function.Injective H) (hi : GInv H c.graph) (hc : Gained K c) (sign : Payload → Res SOp)
    (id : MemberId) : Gained K (c.remove H sign id).1 := by
  unfold Cgka.remove
  split
  · exact hc
  · split
    · exact hc
    · rename_i c1 hr
      have hx := (Ext.replayIfNeeded hr).graph
      have h1 := hc.replay (opens_derivable K _) (fun e he => .inl he) hr
      split
      · exact .same hx h1
      · split
        · exact .same hx h1
        · rename_i t i rk hp
          have h2 : Holds (fun e => e ∈ published c ∨ K e.plain) (Spec.Derivable K (published c)) ({ c1 with tree := t } : Cgka) :=
            ⟨h1.boxes.fewer (BeeKem.removeId_fewer hp), h1.keys, h1.pcs⟩
          dsimp only
          split
          · exact .same hx h2
          · rename_i op ho
            exact .of (published_addLocal (op := op) hH hi (by rw [← hx])).1 (h2.congr rfl rfl rfl)

theorem updateTarget_gains {newSk usk : Sk} {uid : MemberId} {upk : Pk} (hk : Secrets D c.ownerSks) (hn : D newSk)
    (h : c.updateTarget newSk = .ok (uid, upk, usk)) : D usk := by
  unfold Cgka.updateTarget at h
  split at h
  · cases h; exact hn
  · split at h
    · split at h <;> simp at h
    · simp at h
    · split at h
      · simp at h
      · rename_i sk hsk
        cases h
        exact hk.get hsk

theorem Gained.update {K : Sk → Prop} (hH : Function.Injective H) (hi : GInv H c.graph) (hc : Gained K c) {sign : Payload → Res SOp}
    (hs : HonestSigner sign) {g : BeeKem.Gen} {n : Nat} {newSk : Sk} (hn : K newSk) (hg : ∀ m, n ≤ m → K (g m)) :
    Gained K (c.update H sign g n newSk).1 ∧ ∀ k op, (c.update H sign g n newSk).2 = .ok (k, op) →
      Spec.Derivable K (published (c.update H sign g n newSk).1) k := by
  unfold Cgka.update
  split
  · exact ⟨hc, by simp⟩
  · rename_i c1 hr
    have hx := (Ext.replayIfNeeded hr).graph
    have h1 := hc.replay (opens_derivable K _) (fun e he => .inl he) hr
    split
    · exact ⟨.same hx h1, by simp⟩
    · rename_i uid upk usk hu
      have husk := updateTarget_gains h1.keys (.known hn) hu
      have h2 : Holds (fun e => e ∈ published c ∨ K e.plain) (Spec.Derivable K (published c))
          ({ c1 with ownerSks := AMap.insert c1.ownerSks upk usk } : Cgka) := ⟨h1.boxes, h1.keys.insert husk, h1.pcs⟩
      dsimp only
      split
      · exact ⟨.same hx h2, by simp⟩
      · rename_i t sks n' k pc henc
        obtain ⟨a, b⟩ := BeeKem.encryptPath_gains (D := Spec.Derivable K (published c)) (fun m hm => .known (hg m hm)) h2.keys henc
        have hpl : ∀ e ∈ Spec.PathChange.ciphers pc, K e.plain   := BeeKem.encryptPath_plain hg henc
        have h3 : Holds (fun e => e ∈ published c ∨ K e.plain) (Spec.Derivable K (published c)) ({ c1 with tree := t, ownerSks := sks } : Cgka) :=
          ⟨BeeKem.applyPath_boxes h1.boxes (fun e he => .inr (hpl e he)) (BeeKem.encryptPath_applies henc), a, h1.pcs⟩
        split
        · exact ⟨.same hx h3, by simp⟩
        · rename_i op ho
          have hsub := (published_addLocal (op := op) (c := c)
            (c' := ({ c1 with tree := t, ownerSks := sks, graph := c1.graph.addLocalOp H op } : Cgka)) hH hi (by rw [← hx])).1
          refine ⟨.of hsub ((h3.insertPcsKey b (H op)).congr rfl rfl rfl), ?_⟩
          intro k' op' hk'
          cases hk'
          exact derivable_mono hsub b

theorem Gained.encrypt {K : Sk → Prop} (hH : Function.Injective H) (hi : GInv H c.graph) (hc : Gained K c) {sign : Payload → Res SOp}
    (hs : HonestSigner sign) {g : BeeKem.Gen} {n r ps : Nat} (hg : ∀ m, n ≤ m → K (g m)) :
    Gained K (c.newAppSecretFor H sign g n r ps).1 ∧ ∀ s op, (c.newAppSecretFor H sign g n r ps).2 = .ok (s, op) →
      Spec.Derivable K (published (c.newAppSecretFor H sign g n r ps).1) s.key.pcs := by
  have fin : ∀ {c : Cgka} {k : Sk} {op : Option SOp} {r ps : Nat}, Gained K c → Spec.Derivable K (published c) k →
      Gained K (c.finishAppSecret k op r ps).1 ∧ ∀ s o, (c.finishAppSecret k op r ps).2 = .ok (s, o) →
        Spec.Derivable K (published (c.finishAppSecret k op r ps).1) s.key.pcs := by
    intro c k op r ps hc hk
    unfold Cgka.finishAppSecret
    split
    · exact ⟨hc, by simp⟩
    · refine ⟨hc, ?_⟩
      intro s o hso
      cases hso
      exact hk
  unfold Cgka.newAppSecretFor
  split
  · exact ⟨hc, by simp⟩
  · obtain ⟨a, b⟩ := hc.update hH hi hs (n := n + 1) (hg n (Nat.le_refl _)) (fun m hm => hg m (Nat.le_trans (Nat.le_succ _) hm))
    split
    · rename_i c1 e he; rw [he] at a; exact ⟨a, by simp⟩
    · rename_i c1 k op he
      rw [he] at a b
      exact fin (Holds.insertPcsKey a (b k op rfl) (H op)) (b k op rfl)
  · split
    · exact ⟨hc, by simp⟩
    · rename_i c1 k hr
      obtain ⟨a, b⟩ := hc.treeRoot (opens_derivable K _) hr
      have htg := (treeRoot_tg hr).1
      simp only [tg, Prod.mk.injEq] at htg
      have a : Gained K c1 := .same htg.2 a
      have b : Spec.Derivable K (published c1) k := by rw [published_congr htg.2]; exact b
      split
      · exact fin a b
      · split
        · exact fin a b
        · exact fin (Holds.insertPcsKey a b _) b

theorem Gained.receive {K : Sk → Prop} (hc : Gained K c) (op : SOp) : Gained K (c.mergeConcurrentOperation H op).1 := by
  have app : ∀ {c1 c2 : Cgka}, c1.graph = c.graph → AMap.get c.graph.ops (H op) = none →
      Holds (fun e => e ∈ published c ∨ K e.plain) (Spec.Derivable K (published c)) c1 →
      c1.applyOperation H op = .ok c2 → Gained K c2 := by
    intro c1 c2 hg hf h1 h2
    obtain ⟨_, a2⟩ := applyOperation_tree (by rw [hg]; exact hf) h2
    obtain ⟨u, v⟩ := published_addOp (c := c) (c' := c2) hf (by rw [a2, hg])
    exact (h1.mono (P' := fun e => e ∈ published c2 ∨ K e.plain) (D' := Spec.Derivable K (published c2)) (fun e he => he.imp_left (u e))
      (fun _ hd => derivable_mono u hd)).apply (fun e he => .inl (v e he)) h2
  unfold Cgka.mergeConcurrentOperation
  split
  · exact hc
  · rename_i hc0
    have hf : AMap.get c.graph.ops (H op) = none := by
      rw [containsOpHash_iff] at hc0; simpa using hc0
    split
    · exact hc
    · split
      · split
        · exact .of (published_addOp hf rfl).1 (hc.congr rfl rfl rfl)
        · split
          · exact .of (published_addOp hf rfl).1 (hc.congr rfl rfl rfl)
          · split
            · exact hc
            · rename_i c1 h1
              exact app rfl hf hc h1
      · split
        · exact hc
        · rename_i c1 hr
          have hx := (Ext.replayIfNeeded hr).graph
          have h1 := hc.replay (opens_derivable K _) (fun e he => .inl he) hr
          split
          · exact .same hx h1
          · rename_i c2 h2
            exact app hx hf h1 h2

theorem device_reach {K : Sk → Prop} (h : Device H K c) : Reach H c := by
  induction h with
  | new h1 h2 => exact .new h1 h2
  | owner me sks _ _ ih => exact .owner me sks ih
  | call _ hh _ ih => exact .call ih hh

theorem device_gained {K : Sk → Prop} (hH : Function.Injective H) (h : Device H K c) : Gained K c := by
  induction h with
  | new h1 h2 => exact holds_new h2
  | owner me sks _ hk ih => exact ⟨ih.boxes, fun p hp => (hk p hp).elim .known (ih.keys p), ih.pcs⟩
  | @call c cmd hd hh hk ih =>
    have hi := (reach_inv hH (device_reach hd)).1
    cases cmd with
    | add sign id pk => exact ih.add hH hi sign id pk
    | remove sign id => exact ih.remove hH hi sign id
    | update sign g n sk => exact (ih.update hH hi hh hk.1 hk.2).1
    | encrypt sign g n r ps => exact (ih.encrypt hH hi hh hk).1
    | decrypt e =>
      have hx := (Ext.decrypt H c e).graph
      exact .same hx (Holds.decrypt (opens_derivable K _) (fun e he => .inl he) ih e).1
    | receive op => exact ih.receive op

end Verif.Cgka
