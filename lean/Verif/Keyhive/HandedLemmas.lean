import Verif.Keyhive.HandedSpec
import Verif.Keyhive.TreeLemmas
import Verif.Cgka.StepInv

/-! # Helper lemmas: what calls record and what they hand out -/

namespace Verif.Cgka

open Verif.BeeKem

variable {H : SOp → Nat}

/-- The operation is recorded. -/
def Cgka.Keeps (H : SOp → Nat) (c : Cgka) (o : SOp) : Prop := AMap.get c.graph.ops (H o) = some o

theorem has_graph {c c' : Cgka} (h : c'.graph = c.graph) (o : SOp) : c'.Keeps H o ↔ c.Keeps H o := by
  unfold Cgka.Keeps
  rw [h]

theorem has_local (hH : Function.Injective H) {c c' : Cgka} {op : SOp} (h : c'.graph = c.graph.addLocalOp H op) (o : SOp) :
    c'.Keeps H o ↔ c.Keeps H o ∨ o = op := by
  unfold Cgka.Keeps
  rw [h]
  show AMap.get (AMap.insert c.graph.ops (H op) op) (H o) = some o ↔ _
  rw [AMap.get_insert]
  by_cases he : H o = H op
  · rw [if_pos he]
    have := hH he
    subst this
    simp
  · rw [if_neg he]
    have : o ≠ op := fun h => he (h ▸ rfl)
    simp [this]

theorem has_add (hH : Function.Injective H) {sign : Payload → Res SOp} (c : Cgka) (id : MemberId) (pk : Pk) (o : SOp) :
    (c.add H sign id pk).1.Keeps H o ↔ c.Keeps H o ∨ (c.add H sign id pk).2 = .ok (some o) := by
  unfold Cgka.add
  split
  · simp
  · split
    · simp
    · rename_i c1 hr
      have hx := (Ext.replayIfNeeded hr).graph
      split
      · simp [has_graph hx]
      · dsimp only
        split
        · rw [has_graph (c := c) (by exact hx)]; simp
        · rename_i op _
          rw [has_local hH (c := c) (op := op) (by rw [← hx])]
          simp [eq_comm]

theorem has_remove (hH : Function.Injective H) {sign : Payload → Res SOp} (c : Cgka) (id : MemberId) (o : SOp) :
    (c.remove H sign id).1.Keeps H o ↔ c.Keeps H o ∨ (c.remove H sign id).2 = .ok (some o) := by
  unfold Cgka.remove
  split
  · simp
  · split
    · simp
    · rename_i c1 hr
      have hx := (Ext.replayIfNeeded hr).graph
      split
      · simp [has_graph hx]
      · split
        · simp [has_graph hx]
        · dsimp only
          split
          · rw [has_graph (c := c) (by exact hx)]; simp
          · rename_i op _
            rw [has_local hH (c := c) (op := op) (by rw [← hx])]
            simp [eq_comm]

theorem has_update (hH : Function.Injective H) {sign : Payload → Res SOp} (c : Cgka) (g : BeeKem.Gen) (n : Nat) (sk : Sk) (o : SOp) :
    (c.update H sign g n sk).1.Keeps H o ↔ c.Keeps H o ∨ ∃ k, (c.update H sign g n sk).2 = .ok (k, o) := by
  unfold Cgka.update
  split
  · simp
  · rename_i c1 hr
    have hx := (Ext.replayIfNeeded hr).graph
    split
    · simp [has_graph hx]
    · dsimp only
      split
      · rw [has_graph (c := c) (by exact hx)]; simp
      · split
        · rw [has_graph (c := c) (by exact hx)]; simp
        · rename_i op _
          rw [has_local hH (c := c) (op := op) (by rw [← hx]; rfl)]
          simp [eq_comm]

theorem has_encrypt (hH : Function.Injective H) {sign : Payload → Res SOp} (c : Cgka) (g : BeeKem.Gen) (n r ps : Nat) (o : SOp) :
    (c.newAppSecretFor H sign g n r ps).1.Keeps H o ↔ c.Keeps H o ∨ ∃ s, (c.newAppSecretFor H sign g n r ps).2 = .ok (s, some o) := by
  have fin : ∀ (c1 : Cgka) k op, (c1.finishAppSecret k op r ps).1 = c1 := by
    intro c1 k op
    unfold Cgka.finishAppSecret
    split <;> rfl
  unfold Cgka.newAppSecretFor
  split
  · simp
  · have hu := has_update hH (sign := sign) c g (n + 1) (g n) o
    split
    · rename_i c1 e he
      rw [he] at hu
      simpa using hu
    · rename_i c1 k op he
      rw [he] at hu
      rw [fin, has_graph (c := c1) (c' := c1.insertPcsKey k (H op)) rfl, hu]
      unfold Cgka.finishAppSecret
      have : AMap.get (c1.insertPcsKey k (H op)).pcsKeyOps ⟨k⟩ = some (H op) := by
        show AMap.get (AMap.insert c1.pcsKeyOps ⟨k⟩ (H op)) ⟨k⟩ = _
        rw [AMap.get_insert, if_pos rfl]
      rw [this]
      simp
  · have none : ∀ (c1 : Cgka) k, ¬ ∃ s, (c1.finishAppSecret k none r ps).2 = .ok (s, some o) := by
      intro c1 k
      unfold Cgka.finishAppSecret
      split <;> simp
    split
    · simp
    · rename_i c1 k hq
      have hx := (Ext.treeRoot hq).graph
      split
      · rw [fin, has_graph hx]
        simp [none]
      · split
        · rw [fin, has_graph hx]
          simp [none]
        · rw [fin, has_graph (c := c) (by exact hx)]
          simp [none]

end Verif.Cgka

namespace Verif.Keyhive

open Verif.Group Verif.Cgka Verif.BeeKem

section doc
variable {H : SOp → Nat}

/-- The operation is recorded in the key tree of the document. -/
def Doc.Keeps (H : SOp → Nat) (d : Doc) (o : SOp) : Prop := ∃ c, d.cgka = some c ∧ c.Keeps H o

theorem doc_has {d : Doc} {c : Cgka} (h : d.cgka = some c) (o : SOp) : d.Keeps H o ↔ c.Keeps H o := by
  unfold Doc.Keeps
  rw [h]
  simp

theorem handed_addCgkaMembers (hH : Function.Injective H) {sign : Payload → Res SOp} : ∀ {l : List (Id × Pk)} {d d' : Doc} {acc ops : List SOp},
    d.addCgkaMembers H sign l acc = (d', .ok ops) → ∃ new, ops = acc ++ new ∧ ∀ o, d'.Keeps H o ↔ d.Keeps H o ∨ o ∈ new := by
  intro l
  induction l with
  | nil => intro d d' acc ops h; cases h; exact ⟨[], by simp, by simp⟩
  | cons p l ih =>
    intro d d' acc ops h
    unfold Doc.addCgkaMembers at h
    split at h
    · cases h
    · rename_i c hc
      have ha := has_add hH (sign := sign) c p.1 p.2
      split at h
      · cases h
      · rename_i c' op he
        rw [he] at ha
        obtain ⟨new, rfl, hn⟩ := ih h
        refine ⟨op.toList ++ new, by simp, fun o => ?_⟩
        rw [hn, doc_has (c := c') rfl, ha, doc_has hc]
        simp [or_assoc, eq_comm]

theorem handed_removeCgkaMembers (hH : Function.Injective H) {sign : Payload → Res SOp} : ∀ {l : List Id} {d d' : Doc} {acc ops : List SOp},
    d.removeCgkaMembers H sign l acc = (d', .ok ops) → ∃ new, ops = acc ++ new ∧ ∀ o, d'.Keeps H o ↔ d.Keeps H o ∨ o ∈ new := by
  intro l
  induction l with
  | nil => intro d d' acc ops h; cases h; exact ⟨[], by simp, by simp⟩
  | cons p l ih =>
    intro d d' acc ops h
    unfold Doc.removeCgkaMembers at h
    split at h
    · cases h
    · rename_i c hc
      have ha := has_remove hH (sign := sign) c p
      split at h
      · cases h
      · rename_i c' op he
        rw [he] at ha
        obtain ⟨new, rfl, hn⟩ := ih h
        refine ⟨op.toList ++ new, by simp, fun o => ?_⟩
        rw [hn, doc_has (c := c') rfl, ha, doc_has hc]
        simp [or_assoc, eq_comm]

theorem handed_dropCgkaMembers (hH : Function.Injective H) {sign : Payload → Res SOp} : ∀ (l : List Id) (d : Doc) (acc : List SOp),
    ∃ new, (d.dropCgkaMembers H sign l acc).2 = acc ++ new ∧ ∀ o, (d.dropCgkaMembers H sign l acc).1.Keeps H o ↔ d.Keeps H o ∨ o ∈ new := by
  intro l
  induction l with
  | nil => intro d acc; exact ⟨[], by simp [Doc.dropCgkaMembers], by simp [Doc.dropCgkaMembers]⟩
  | cons p l ih =>
    intro d acc
    unfold Doc.dropCgkaMembers
    split
    · exact ⟨[], by simp, by simp⟩
    · rename_i c hc
      have ha := has_remove hH (sign := sign) c p
      split
      · rename_i c' e he
        rw [he] at ha
        obtain ⟨new, h1, hn⟩ := ih { d with cgka := some c' } acc
        refine ⟨new, h1, fun o => ?_⟩
        rw [hn, doc_has (c := c') rfl, ha, doc_has hc]
        simp
      · rename_i c' op he
        rw [he] at ha
        obtain ⟨new, h1, hn⟩ := ih { d with cgka := some c' } (acc ++ op.toList)
        refine ⟨op.toList ++ new, by rw [h1]; simp, fun o => ?_⟩
        rw [hn, doc_has (c := c') rfl, ha, doc_has hc]
        simp [or_assoc, eq_comm]

end doc

variable {E : Env}

theorem hasKeyOp_iff {k : Keyhive} {did : Id} {d : Doc} (h : AMap.get k.docs did = some d) (o : SOp) :
    HasKeyOp E k did o ↔ d.Keeps (E.hashCgka did) o := by
  unfold HasKeyOp Doc.Keeps Cgka.Keeps
  rw [h]
  simp

theorem handsOut_docs {k k' : Keyhive} (h : k'.docs = k.docs) : HandsOut E k k' [] :=
  ⟨fun _ => [], fun did op => by unfold HasKeyOp; rw [h]; simp, by simp⟩

theorem HandsOut.trans {k k1 k2 : Keyhive} {l1 l2 : List SOp} (h1 : HandsOut E k k1 l1) (h2 : HandsOut E k1 k2 l2) :
    HandsOut E k k2 (l1 ++ l2) := by
  obtain ⟨m1, a1, b1⟩ := h1
  obtain ⟨m2, a2, b2⟩ := h2
  refine ⟨fun i => m1 i ++ m2 i, fun did op => ?_, fun op => ?_⟩
  · rw [a2, a1, List.mem_append, or_assoc]
  · rw [List.mem_append, b1, b2]
    simp only [List.mem_append, exists_or]

theorem HandsOut.congr {k k' : Keyhive} {l l' : List SOp} (h : HandsOut E k k' l) (he : ∀ o, o ∈ l' ↔ o ∈ l) : HandsOut E k k' l' := by
  obtain ⟨m, a, b⟩ := h
  exact ⟨m, a, fun op => (he op).trans (b op)⟩

theorem handsOut_setDoc {k : Keyhive} {did : Id} {d d' : Doc} {l : List SOp} (h : AMap.get k.docs did = some d)
    (hd : ∀ o, d'.Keeps (E.hashCgka did) o ↔ d.Keeps (E.hashCgka did) o ∨ o ∈ l) : HandsOut E k (k.setDoc did d') l := by
  refine ⟨fun i => if i = did then l else [], fun i op => ?_, fun op => ?_⟩
  · by_cases hi : i = did
    · subst hi
      rw [hasKeyOp_iff (d := d') (by rw [get_setDoc h, if_pos rfl]), hd, hasKeyOp_iff h]
      simp
    · unfold HasKeyOp
      rw [get_setDoc h, if_neg hi]
      simp [hi]
  · constructor
    · intro h
      exact ⟨did, by simpa using h⟩
    · rintro ⟨i, hi⟩
      dsimp only at hi
      split at hi
      · exact hi
      · cases hi

theorem handsOut_propagateAdd (hE : E.NoKeyClash) {L : Local} {gid : Id} {who : Agent} {k k' : Keyhive} {did : Id} {ops : List SOp}
    (h : k.propagateAdd E L gid who did = (k', .ok ops)) : HandsOut E k k' ops := by
  unfold Keyhive.propagateAdd at h
  split at h
  · cases h; exact handsOut_docs rfl
  · rename_i doc hd
    split at h
    · cases h
    · split at h
      · cases h; exact handsOut_docs rfl
      · split at h
        · cases h
        · split at h
          · cases h
          · rename_i doc' ops' hadd
            cases h
            obtain ⟨new, rfl, hn⟩ := handed_addCgkaMembers (hE did) hadd
            exact handsOut_setDoc hd (by simpa using hn)

theorem handsOut_propagateAdds (hE : E.NoKeyClash) {L : Local} {gid : Id} {who : Agent} : ∀ {dids : List Id} {k k' : Keyhive} {acc ops : List SOp},
    k.propagateAdds E L gid who dids acc = (k', .ok ops) → ∃ new, ops = acc ++ new ∧ HandsOut E k k' new := by
  intro dids
  induction dids with
  | nil => intro k k' acc ops h; cases h; exact ⟨[], by simp, handsOut_docs rfl⟩
  | cons did dids ih =>
    intro k k' acc ops h
    unfold Keyhive.propagateAdds at h
    split at h
    · cases h
    · rename_i k1 ops1 hk1
      obtain ⟨new, rfl, hn⟩ := ih h
      exact ⟨ops1 ++ new, by simp, (handsOut_propagateAdd hE hk1).trans hn⟩

theorem handsOut_propagateRemove (hE : E.NoKeyClash) {L : Local} {gid : Id} {ids : List Id} {k k' : Keyhive} {did : Id} {ops : List SOp}
    (h : k.propagateRemove E L gid ids did = (k', .ok ops)) : HandsOut E k k' ops := by
  unfold Keyhive.propagateRemove at h
  split at h
  · cases h; exact handsOut_docs rfl
  · rename_i doc hd
    split at h
    · cases h
    · split at h
      · cases h; exact handsOut_docs rfl
      · rename_i tm _ _
        cases h
        obtain ⟨new, h1, hn⟩ := handed_dropCgkaMembers (hE did) (sign := L.signCgka did)
          (ids.filter (fun i => decide (i ∉ ((AMap.values tm).filter (fun p => !p.1.isMembered)).map (fun p => p.1.id)))) doc []
        rw [List.nil_append] at h1
        rw [h1]
        exact handsOut_setDoc hd hn

theorem handsOut_propagateRemoves (hE : E.NoKeyClash) {L : Local} {gid : Id} {ids : List Id} : ∀ {dids : List Id} {k k' : Keyhive} {acc ops : List SOp},
    k.propagateRemoves E L gid ids dids acc = (k', .ok ops) → ∃ new, ops = acc ++ new ∧ HandsOut E k k' new := by
  intro dids
  induction dids with
  | nil => intro k k' acc ops h; cases h; exact ⟨[], by simp, handsOut_docs rfl⟩
  | cons did dids ih =>
    intro k k' acc ops h
    unfold Keyhive.propagateRemoves at h
    split at h
    · cases h
    · rename_i k1 ops1 hk1
      obtain ⟨new, rfl, hn⟩ := ih h
      exact ⟨ops1 ++ new, by simp, (handsOut_propagateRemove hE hk1).trans hn⟩

theorem handed_encryptContent {H : SOp → Nat} (hH : Function.Injective H) {sign : Payload → Res SOp} {g : BeeKem.Gen} {d d' : Doc} {r ps x : Nat}
    {res : Except Err (EncContent × Option SOp)} (h : d.encryptContent H sign g r ps x = (d', res)) (o : SOp) :
    d'.Keeps H o ↔ d.Keeps H o ∨ o ∈ (match res with | .ok (_, op) => op.toList | .error _ => []) := by
  unfold Doc.encryptContent at h
  split at h
  · cases h; simp
  · rename_i c hc
    have he := has_encrypt hH (sign := sign) c g 0 r ps o
    rcases hq : Cgka.newAppSecretFor H sign g 0 c r ps with ⟨c', e | ⟨s, op⟩⟩
    all_goals
      rw [hq] at h he
      cases h
      rw [doc_has (c := c') rfl, he, doc_has hc]
      simp [eq_comm]

theorem handed_pcsUpdate {H : SOp → Nat} (hH : Function.Injective H) {sign : Payload → Res SOp} {g : BeeKem.Gen} {d d' : Doc} 
    {res : Except Err (SOp × Sk)} (h : d.pcsUpdate H sign g  = (d', res)) (o : SOp) :
    d'.Keeps H o ↔ d.Keeps H o ∨ o ∈ (match res with | .ok (op, _) => [op] | .error _ => []) := by
  unfold Doc.pcsUpdate at h
  split at h
  · cases h; simp
  · rename_i c hc
    have he := has_update hH (sign := sign) c g 1 (g 0) o
    rcases hq : Cgka.update H sign g 1 c (g 0) with ⟨c', e | ⟨s, op⟩⟩
    all_goals
      rw [hq] at h he
      cases h
      rw [doc_has (c := c') rfl, he, doc_has hc]
      simp [eq_comm]

/-- The operations recorded for a document, for evaluation. -/
def treeGraph (k : Keyhive) (did : Id) : AMap Nat SOp :=
  match (AMap.get k.docs did).bind Doc.cgka with
  | some c => c.graph.ops
  | none => []

theorem treeGraph_of {k : Keyhive} {did : Id} {op : SOp} (h : HasKeyOp E k did op) :
    AMap.get (treeGraph k did) (E.hashCgka did op) = some op := by
  obtain ⟨d, c, h1, h2, h3⟩ := h
  simp only [treeGraph, h1, Option.bind_some, h2, h3]

theorem hasKeyOp_of {k : Keyhive} {did : Id} {op : SOp} (h : AMap.get (treeGraph k did) (E.hashCgka did op) = some op) :
    HasKeyOp E k did op := by
  unfold treeGraph at h
  split at h
  · rename_i c hc
    rw [Option.bind_eq_some_iff] at hc
    obtain ⟨d, h1, h2⟩ := hc
    exact ⟨d, c, h1, h2, h⟩
  · cases h

end Verif.Keyhive
