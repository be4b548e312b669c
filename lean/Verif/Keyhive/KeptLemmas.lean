import Verif.Keyhive.AdvanceLemmas
import Verif.Cgka.Props

/-! # Recorded group-key operations -/

namespace Verif.Cgka

open Verif.BeeKem

theorem addLocalOp_ops (H : SOp → Nat) (g : Graph) (op : SOp) : (g.addLocalOp H op).ops = AMap.insert g.ops (H op) op := rfl

theorem addOp_ops (H : SOp → Nat) (g : Graph) (op : SOp) (hs : List Nat) : (g.addOp H op hs).ops = AMap.insert g.ops (H op) op := rfl

theorem GStep.keep {H : SOp → Nat} (hH : Function.Injective H) {g g' : Graph} (h : GStep H g g') {op : SOp}
    (ho : AMap.get g.ops (H op) = some op) : AMap.get g'.ops (H op) = some op := by
  cases h with
  | same => exact ho
  | own =>
    rw [addLocalOp_ops, AMap.get_insert]
    split
    · rename_i he; rw [hH he]
    · exact ho
  | recv =>
    rw [addOp_ops, AMap.get_insert]
    split
    · rename_i he; rw [hH he]
    · exact ho

theorem later_ops {H : SOp → Nat} (hH : Function.Injective H) {c c' : Cgka} (h : Later H c c') {op : SOp}
    (ho : AMap.get c.graph.ops (H op) = some op) : AMap.get c'.graph.ops (H op) = some op := by
  induction h with
  | refl => exact ho
  | owner me sks _ ih => exact ih
  | call _ hcmd ih => exact (step_frame (H := H) _ _ hcmd).1.keep hH ih

/-- What has been taken in is recorded. -/
theorem receive_recorded {H : SOp → Nat} (hH : Function.Injective H) {c : Cgka} (hi : GInv H c.graph) {op : SOp} {b : Bool}
    (h : (c.mergeConcurrentOperation H op).2 = .ok b) :
    AMap.get (c.mergeConcurrentOperation H op).1.graph.ops (H op) = some op := by
  rcases Props.receive_cases H c op with ⟨h1, h2⟩ | ⟨h1, _, _⟩
  · rw [h1]
    have hk : c.graph.containsOpHash (H op) = true := by
      by_contra hn
      revert h h2
      unfold Cgka.mergeConcurrentOperation
      rw [if_neg hn]
      repeat' split
      all_goals first | (intro h; cases h; done) | (intro _ h; exact absurd rfl h)
    rw [containsOpHash_iff] at hk
    cases ho : AMap.get c.graph.ops (H op) with
    | none => exact absurd ho hk
    | some o => rw [hH (hi.hash _ _ ho)]
  · rw [h1, addOp_ops, AMap.get_insert_self]

end Verif.Cgka

namespace Verif.Keyhive

open Verif.Group Verif.Cgka Verif.BeeKem

variable {E : Env}

/-- The document has recorded the operation. -/
def Doc.Recorded (H : SOp → Nat) (op : SOp) (d : Doc) : Prop := ∃ c, d.cgka = some c ∧ AMap.get c.graph.ops (H op) = some op

theorem recorded_merge {H : SOp → Nat} (hH : Function.Injective H) {d d' : Doc} (hr : d.Has (Cgka.Reach H)) {op : SOp} {b : Bool}
    (h : d.mergeCgkaOp H op = (d', .ok b)) : d'.Recorded H op := by
  unfold Doc.mergeCgkaOp at h
  split at h
  · rename_i c hc
    dsimp only at h
    rw [Prod.mk.injEq] at h
    rw [← h.1]
    exact ⟨_, rfl, receive_recorded hH (reach_inv hH (hr c hc)).1 h.2⟩
  · split at h
    · split at h
      · cases h
      · split at h
        · cases h
        · rename_i c hc
          cases h
          refine ⟨withPublic c, rfl, ?_⟩
          show AMap.get c.graph.ops (H op) = some op
          rw [(newFromInitAdd_frame hc).1, addLocalOp_ops, AMap.get_insert_self]
    · cases h

theorem recorded_invite {H : SOp → Nat} (hH : Function.Injective H) {d d' : Doc} (hr : d.Has (Cgka.Reach H)) {op : SOp} {sk : Sk} {b : Bool}
    (h : d.mergeCgkaInviteOp H op sk = (d', .ok b)) : d'.Recorded H op := by
  unfold Doc.mergeCgkaInviteOp at h
  split at h
  · split at h
    · cases h
    · rename_i c hc
      split at h
      · cases h
      · refine recorded_merge hH ?_ h
        intro c' hc'
        cases hc'
        exact .owner _ _ (.owner _ _ (hr c hc))
  · cases h

theorem closeDoc_ok {α : Type} {k k' : Keyhive} {i : Id} {d0 : Doc} {r : Doc × Res α} (h0 : AMap.get k.docs i = some d0)
    (h : k.closeDoc i r = (k', .ok ())) : AMap.get k'.docs i = some r.1 ∧ ∃ a, r.2 = .ok a := by
  unfold Keyhive.closeDoc at h
  rw [Prod.mk.injEq] at h
  obtain ⟨h1, h2⟩ := h
  refine ⟨?_, ?_⟩
  · rw [← h1, get_setDoc h0, if_pos rfl]
  · split at h2
    · cases h2
    · rename_i a ha; exact ⟨a, ha⟩

theorem recorded_receive' {k k' : Keyhive} {did : Id} (ht : ∀ d, AMap.get k.docs did = some d → d.Has (Cgka.Reach (E.hashCgka did)))
    (hH : Function.Injective (E.hashCgka did)) {op : SOp} (h : k.receive E (.cgka did op) = (k', .ok ())) : HasKeyOp E k' did op := by
  simp only [Keyhive.receive] at h
  unfold Keyhive.receiveCgkaOp at h
  have main : ∀ {d0 : Doc} {r : Doc × Res Bool}, AMap.get k.docs did = some d0 → (∀ d' b, r = (d', .ok b) → d'.Recorded (E.hashCgka did) op) →
      k.closeDoc did r = (k', .ok ()) → HasKeyOp E k' did op := by
    intro d0 r h0 hr hc
    obtain ⟨h1, b, h2⟩ := closeDoc_ok h0 hc
    obtain ⟨c, e1, e2⟩ := hr r.1 b (Prod.ext rfl h2)
    exact ⟨_, c, h1, e1, e2⟩
  split at h
  · cases h
  · split at h
    · cases h
    · rename_i d hd
      have ht := ht d hd
      split at h
      · split at h
        · split at h
          · cases h
          · exact main hd (fun d' b hr => recorded_invite hH ht hr) h
        · split at h
          · unfold Keyhive.mergePublicInvite at h
            split at h
            · unfold Keyhive.closeDoc at h
              cases h
            · rename_i d' b hb
              obtain ⟨h1, b', h2⟩ := closeDoc_ok hd h
              obtain ⟨c, e1, e2⟩ := recorded_invite hH ht hb
              unfold Doc.resetCgkaOwner at h1
              rw [e1] at h1
              exact ⟨_, _, h1, rfl, e2⟩
          · exact main hd (fun d' b hr => recorded_merge hH ht hr) h
      · exact main hd (fun d' b hr => recorded_merge hH ht hr) h

theorem recorded_receive {k k' : Keyhive} (hk : Reach E k) {did : Id} (hH : Function.Injective (E.hashCgka did)) {op : SOp}
    (h : k.receive E (.cgka did op) = (k', .ok ())) : HasKeyOp E k' did op := recorded_receive' (reach_trees hk did) hH h

theorem onward_grown {did : Id} {k k' : Keyhive} {P : Cgka → Prop} (C : Stays (E.hashCgka did) P) (ho : E.OnlyRoots did)
    (h : Onward E did k k') {d : Doc} {c : Cgka} (hd : AMap.get k.docs did = some d) (hc : d.cgka = some c) (hp : P c) :
    ∃ d' c', AMap.get k'.docs did = some d' ∧ d'.cgka = some c' ∧ P c' := by
  have main : Advance (· = did) (fun i c => i = did → P c) k' := by
    have C' : ∀ i, Stays (E.hashCgka i) (fun c => i = did → P c) := by
      intro i
      by_cases hi : i = did
      · subst hi
        exact ⟨fun me sks h _ => C.owner me sks (h rfl), fun id pk hq h _ => C.add id pk hq (h rfl), fun id hq h _ => C.remove id hq (h rfl),
          fun g n sk hq h _ => C.update g n sk hq (h rfl), fun g n r ps hq h _ => C.encrypt g n r ps hq (h rfl), fun e h _ => C.decrypt e (h rfl),
          fun op h _ => C.receive op (h rfl)⟩
      · constructor <;> intros <;> contradiction
    induction h with
    | refl => intro i hi; subst hi; exact ⟨d, hd, c, hc, fun _ => hp⟩
    | call cl _ hcl hn ih =>
      refine advance_call C' (fun i hi => by cases hi; exact ho) ih cl hcl ?_
      cases cl with
      | newDoc L S did' co heads => intro he; exact hn L S co heads (by rw [he])
      | _ => trivial
  obtain ⟨d', h1, c', h2, h3⟩ := main did rfl
  exact ⟨d', c', h1, h2, h3 rfl⟩

theorem onward_later {did : Id} {k k' : Keyhive} (ho : E.OnlyRoots did) (h : Onward E did k k') {d : Doc} {c : Cgka}
    (hd : AMap.get k.docs did = some d) (hc : d.cgka = some c) :
    ∃ d' c', AMap.get k'.docs did = some d' ∧ d'.cgka = some c' ∧ Later (E.hashCgka did) c c' :=
  onward_grown (stays_later _ c) ho h hd hc .refl

theorem Onward.reach {did : Id} {k k' : Keyhive} (h : Onward E did k k') (hk : Reach E k) : Reach E k' := by
  induction h with
  | refl => exact hk
  | call c _ hc _ ih => exact .call c ih hc

end Verif.Keyhive
