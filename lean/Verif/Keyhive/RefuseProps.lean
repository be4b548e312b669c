import Verif.Keyhive.RefuseSpec
import Verif.Keyhive.TreeLemmas
import Verif.Keyhive.RoleProps
import Verif.Cgka.Props
import Verif.BeeKem.Truthful

/-! # Refused events (C115) -/

namespace Verif.Keyhive

open Verif.Group Verif.Cgka Verif.BeeKem

variable {E : Env}

theorem Untouched.refl (k : Keyhive) : Untouched k k := by
  refine ⟨rfl, rfl, rfl, rfl, rfl, rfl, fun _ => rfl, fun _ => rfl, ?_⟩
  intro i
  cases AMap.get k.docs i with
  | none => trivial
  | some d =>
    refine ⟨rfl, rfl, ?_⟩
    cases d.cgka with
    | none => trivial
    | some c => exact ⟨⟨rfl, fun _ => id⟩, fun _ => id⟩

/-- What a refused operation leaves of a replica. -/
def Still (d d' : Doc) : Prop := d'.group = d.group ∧ d'.heads = d.heads ∧
  match d.cgka, d'.cgka with
  | none, none => True
  | some c, some c' => SameRecord c c' ∧ ∀ pk, AMap.get c.ownerSks pk ≠ none → AMap.get c'.ownerSks pk ≠ none
  | _, _ => False

theorem Still.refl (d : Doc) : Still d d := by
  refine ⟨rfl, rfl, ?_⟩
  cases d.cgka with
  | none => trivial
  | some c => exact ⟨⟨rfl, fun _ => id⟩, fun _ => id⟩

theorem merge_refused {H : SOp → Nat} {c c' : Cgka} {op : SOp} {e : CgkaError} (h : c.mergeConcurrentOperation H op = (c', .error e)) :
    c' = c ∨ c.replayIfNeeded H = .ok c' := by
  unfold Cgka.mergeConcurrentOperation at h
  split at h
  · simp at h
  · split at h
    · cases h; exact .inl rfl
    · split at h
      · split at h
        · simp at h
        · split at h
          · simp at h
          · split at h
            · cases h; exact .inl rfl
            · simp at h
      · split at h
        · cases h; exact .inl rfl
        · rename_i c1 hr1
          split at h
          · cases h; exact .inr hr1
          · simp at h

theorem replayed_sks {H : SOp → Nat} {c c' : Cgka} (h : c.replayIfNeeded H = .ok c') (pk : Pk) (hp : AMap.get c.ownerSks pk ≠ none) :
    AMap.get c'.ownerSks pk ≠ none := by
  unfold Cgka.replayIfNeeded at h
  split at h
  · unfold Cgka.replayOpsGraph at h
    simp only [bind, Except.bind] at h
    split at h
    · cases h
    · split at h
      · cases h
      · cases h
        exact extend_get hp
  · cases h; exact hp

theorem still_merge {H : SOp → Nat} {d d' : Doc} {op : SOp} {e : CgkaError} (h : d.mergeCgkaOp H op = (d', .error e)) : Still d d' := by
  unfold Doc.mergeCgkaOp at h
  split at h
  · rename_i c hc
    cases hq : c.mergeConcurrentOperation H op with
    | mk c' r =>
      rw [hq] at h
      cases h
      refine ⟨rfl, rfl, ?_⟩
      rw [hc]
      rcases merge_refused hq with rfl | hr
      · exact ⟨⟨rfl, fun _ => id⟩, fun _ => id⟩
      · exact ⟨⟨(Ext.replayIfNeeded hr).graph, (Ext.replayIfNeeded hr).keep⟩, replayed_sks hr⟩
  · split at h
    · split at h
      · cases h; exact .refl _
      · split at h
        · cases h; exact .refl _
        · cases h
    · cases h; exact .refl _

theorem Still.before {d d1 d' : Doc} {c c1 : Cgka} (hc : d.cgka = some c) (h1 : d1 = { d with cgka := some c1 })
    (hg : c1.graph = c.graph) (hk : c1.pcsKeys = c.pcsKeys) (hs : ∀ pk, AMap.get c.ownerSks pk ≠ none → AMap.get c1.ownerSks pk ≠ none)
    (h : Still d1 d') : Still d d' := by
  subst h1
  obtain ⟨a, b, r⟩ := h
  refine ⟨a, b, ?_⟩
  rw [hc]
  dsimp only at r ⊢
  split at r <;> rename_i h1 h2
  · cases h1
  · cases h1
    rw [h2]
    obtain ⟨⟨r1, r2⟩, r3⟩ := r
    exact ⟨⟨r1.trans hg, fun x hx => r2 x (by rw [hk]; exact hx)⟩, fun pk hp => r3 pk (hs pk hp)⟩
  · exact r.elim

theorem still_invite {H : SOp → Nat} {d d' : Doc} {op : SOp} {sk : Sk} {e : CgkaError} (h : d.mergeCgkaInviteOp H op sk = (d', .error e)) : Still d d' := by
  unfold Doc.mergeCgkaInviteOp at h
  split at h
  · split at h
    · cases h; exact .refl _
    · rename_i c hc
      split at h
      · cases h; exact .refl _
      · refine Still.before hc rfl ?_ ?_ ?_ (still_merge h)
        · rfl
        · rfl
        · intro pk hp
          simp only [withPublic, Cgka.withNewOwner, AMap.get_insert]
          split
          · simp
          · split
            · simp
            · exact hp
  · cases h; exact .refl _

theorem untouched_doc {k : Keyhive} {i : Id} {d d' : Doc} (hd : AMap.get k.docs i = some d) (h : Still d d') : Untouched k (k.setDoc i d') := by
  have hg := get_setDoc (d := d') hd
  refine ⟨rfl, rfl, rfl, rfl, rfl, rfl, fun _ => rfl, ?_, ?_⟩
  · intro j
    unfold Keyhive.getAgent
    have hc : AMap.contains (k.setDoc i d').docs j = AMap.contains k.docs j := by
      unfold AMap.contains
      rw [hg]
      split
      · rename_i hj; rw [hj, hd]; rfl
      · rfl
    rw [hc]
    rfl
  · intro j
    rw [hg]
    by_cases hj : j = i
    · rw [hj, hd, if_pos rfl]
      exact h
    · rw [if_neg hj]
      exact (Untouched.refl k).docs j

theorem untouched_close {k k' : Keyhive} {i : Id} {d d' : Doc} {α : Type} {r : Res α} {e : Err} (hd : AMap.get k.docs i = some d)
    (hs : ∀ x, r = .error x → Still d d') (h : k.closeDoc i (d', r) = (k', .error e)) : Untouched k k' := by
  unfold Keyhive.closeDoc at h
  cases r with
  | error x => cases h; exact untouched_doc hd (hs x rfl)
  | ok y => cases h

theorem untouched_cgka {k k' : Keyhive} {i : Id} {op : SOp} {e : Err} (h : k.receiveCgkaOp E i op = (k', .error e)) : Untouched k k' := by
  unfold Keyhive.receiveCgkaOp at h
  split at h
  · cases h; exact .refl _
  · split at h
    · cases h; exact .refl _
    · rename_i d hd
      split at h
      · split at h
        · split at h
          · cases h; exact .refl _
          · exact untouched_close hd (fun x hx => still_invite (Prod.ext rfl hx)) h
        · split at h
          · unfold Keyhive.mergePublicInvite at h
            split at h
            · rename_i hq
              exact untouched_close hd (fun x _ => still_invite hq) h
            · rename_i d1 b hq
              unfold Doc.resetCgkaOwner at h
              split at h
              · rename_i hn
                exfalso
                unfold Doc.mergeCgkaInviteOp at hq
                split at hq
                · split at hq
                  · cases hq
                  · split at hq
                    · cases hq
                    · unfold Doc.mergeCgkaOp at hq
                      have := congrArg (·.1.cgka) hq
                      dsimp only at this
                      rw [hn] at this
                      cases this
                · cases hq
              · cases h
          · exact untouched_close hd (fun x hx => still_merge (Prod.ext rfl hx)) h
      · exact untouched_close hd (fun x hx => still_merge (Prod.ext rfl hx)) h

theorem untouched_prekey {k k' : Keyhive} {op : Prekey.KeyOp} {e : Err}
    (hk : E.validKey op = true ∨ AMap.get k.reg.indies op.issuer ≠ none)
    (h : k.receivePrekeyOp E op = (k', .error e)) : Untouched k k' := by
  have hreg : (k.reg.receivePrekeyOp E.hashKey E.validKey op).1 = k.reg := by
    unfold Keyhive.receivePrekeyOp at h
    have h2 := congrArg Prod.snd h
    dsimp only at h2
    clear h
    have indie : ∀ {r i}, (∃ x, (Prekey.Registry.receiveIndie E.hashKey E.validKey r i op).2 = .error x) →
        (Prekey.Registry.receiveIndie E.hashKey E.validKey r i op).1 = r ∧ (op.issuer ≠ i.id ∨ E.validKey op = false) := by
      rintro r i ⟨x, hx⟩
      revert hx
      unfold Prekey.Registry.receiveIndie
      split
      · rename_i hq
        refine fun _ => ⟨rfl, ?_⟩
        unfold Prekey.Indie.receive at hq
        split at hq
        · rename_i hi; exact .inl hi
        · simp only [bind, Except.bind, Prekey.State.insertOp] at hq
          split at hq
          · rename_i hv
            split at hv
            · cases hv
            · rename_i hw; exact .inr (by simpa using hw)
          · cases hq
      · intro hx; cases hx
    have herr : ∃ x, (k.reg.receivePrekeyOp E.hashKey E.validKey op).2 = .error x := by
      split at h2
      · exact ⟨_, by assumption⟩
      · cases h2
    clear h2
    revert herr
    unfold Prekey.Registry.receivePrekeyOp
    split
    · exact fun _ => rfl
    · split
      · unfold Prekey.Registry.receiveMembered
        split
        · rintro ⟨x, hx⟩; cases hx
        · split
          · exact fun _ => rfl
          · rintro ⟨x, hx⟩; cases hx
      · split
        · exact fun hx => (indie hx).1
        · rename_i hm _ hn
          intro hx
          exfalso
          rcases (indie hx).2 with h1 | h1
          · exact h1 rfl
          · rcases hk with h2 | h2
            · rw [h1] at h2; cases h2
            · exact h2 hn
  have hk' : k' = { k with reg := (k.reg.receivePrekeyOp E.hashKey E.validKey op).1 } := (congrArg Prod.fst h).symm
  rw [hreg] at hk'
  rw [hk']
  exact .refl k

theorem untouched_dlg {k k' : Keyhive} {s : SDlg} {e : Err} (hf : e.fatal = false) (h : k.receiveDelegation E s = (k', .error e)) : Untouched k k' := by
  unfold Keyhive.receiveDelegation at h
  split at h
  · cases h
  · split at h
    · cases h; exact .refl _
    · split at h
      · cases h; exact .refl _
      · unfold Keyhive.applyDlg at h
        split at h
        · split at h
          · cases h; exact .refl _
          · cases h
        · split at h
          · split at h
            · cases h; exact .refl _
            · cases h
          · split at h
            · split at h
              · rename_i hp
                cases h
                unfold Keyhive.promote at hp
                dsimp only at hp
                split at hp
                · cases hp
                · cases hp
                  exfalso
                  revert hf
                  split <;> simp [Err.fatal]
              · cases h
            · cases h

theorem untouched_rev {k k' : Keyhive} {s : SRev} {e : Err} (hf : e.fatal = false)
    (hs : ∀ d, AMap.get k.dlgs s.revoke = some d → AMap.get k.groups d.subject ≠ none ∨ AMap.get k.docs d.subject ≠ none ∨ k.individual d.subject = none)
    (h : k.receiveRevocation E s = (k', .error e)) : Untouched k k' := by
  unfold Keyhive.receiveRevocation at h
  split at h
  · cases h
  · split at h
    · cases h; exact .refl _
    · split at h
      · cases h; exact .refl _
      · rename_i r hr
        have hsub : ∃ d, AMap.get k.dlgs s.revoke = some d ∧ r.subject = d.subject := by
          unfold Keyhive.toRev at hr
          split at hr
          · cases hr
          · rename_i d hd
            split at hr
            · cases hr
            · cases hr; exact ⟨d, hd, by cases ‹Option Dlg› <;> rfl⟩
        obtain ⟨d, hd, hsub⟩ := hsub
        have := hs d hd
        rw [← hsub] at this
        unfold Keyhive.applyRev at h
        split at h
        · split at h
          · cases h; exact .refl _
          · cases h
        · rename_i hg
          split at h
          · split at h
            · cases h; exact .refl _
            · cases h
          · rename_i hdoc
            rcases this with h1 | h1 | h1
            · exact absurd hg h1
            · exact absurd hdoc h1
            · rw [h1] at h
              cases h
              simp [Err.fatal] at hf

namespace RefuseProps

/-- C115: an event that is refused leaves nothing behind: if receiving it returns an error, nothing that can be seen of the device has changed.
Missing: forged prekeys in the name of strangers, which are refused but make the stranger known (`C41_fails`, `C85_fails`), and revocations in what
the device takes for an individual (`C115_fails`). -/
theorem C115_refused_partial {k k' : Keyhive} {ev : Event} {e : Err} (h : k.receive E ev = (k', .error e)) (hf : e.fatal = false)
    (hp : ∀ op, ev = .prekey op → E.validKey op = true ∨ AMap.get k.reg.indies op.issuer ≠ none)
    (hs : ∀ s, ev = .rev s → ∀ d, AMap.get k.dlgs s.revoke = some d →
      AMap.get k.groups d.subject ≠ none ∨ AMap.get k.docs d.subject ≠ none ∨ k.individual d.subject = none) : Untouched k k' := by
  cases ev with
  | prekey op => exact untouched_prekey (hp op rfl) h
  | cgka i op => exact untouched_cgka h
  | dlg s => exact untouched_dlg hf h
  | rev s => exact untouched_rev hf (hs s rfl) h

/-- C115, in terms of who signs what: if keys of individuals sign no delegation without a proof, as the keys of groups and documents do, and the device has
received prekeys of individuals only, then every refused event leaves the device as it was, except for forged prekeys in the name of strangers. -/
theorem C115_individuals_partial {Ind : Id → Prop} (hI : E.Individuals Ind) {k k' : Keyhive} (hk : ReachPlain E Ind k) {ev : Event} {e : Err}
    (h : k.receive E ev = (k', .error e)) (hf : e.fatal = false)
    (hp : ∀ op, ev = .prekey op → E.validKey op = true ∨ AMap.get k.reg.indies op.issuer ≠ none) : Untouched k k' := by
  refine C115_refused_partial h hf hp ?_
  intro s _ d hd
  rcases (reach_roles hI hk).subj _ _ hd with h1 | h1
  · exact .inl h1
  · exact .inr (.inl h1)

-- Agent 9 revokes somebody from a team in which it has no say.
open Sample in
example : EP.Individuals (fun i => i < 100) ∧ ReachPlain EP (fun i => i < 100) (feed EP k0 [.dlg kAlice, .dlg kBob, .dlg gTeam, .dlg gCarol]) ∧
    ((feed EP k0 [.dlg kAlice, .dlg kBob, .dlg gTeam, .dlg gCarol]).receive EP (.rev ⟨9, 9001, hashDlg kBob, none, []⟩)).2 =
      .error (.group .invalidProofChain) :=
  ⟨EP_individuals, plain_feed (by intro op h; simp at h) plain_k0, by decide +kernel⟩

-- A delegation with a proof the device does not have, and an operation of a document's group that it cannot place.
open Sample in
example : (k0.receive Sample.E (.dlg ⟨1, 1001, 2, .read, some 77, [], []⟩)).2 = .error .missingDelegation ∧ Err.fatal .missingDelegation = false := by
  decide +kernel

open Sample in
example : ((feed Sample.E k0 [.dlg docAlice]).receive Sample.E (.cgka 300 s1)).2 =
    .error (.cgka .outOfOrderOperation) ∧ AMap.get (feed Sample.E k0 [.dlg docAlice]).docs 300 ≠ none := by decide +kernel

/-- C115 fails: agent 7, whom the device knows as an individual, has signed a delegation as if it were a group (for which the device forgot it, C53) and
sent prekeys again. Then agent 9, who has no say in it, revokes the delegation. The device refuses the revocation, and no longer knows agent 7. -/
theorem C115_fails : ∃ (E : Env) (k k' : Keyhive) (s : SRev) (e : Err), E.NoClash ∧ Reach E k ∧ k.receive E (.rev s) = (k', .error e) ∧ e.fatal = false ∧
    k.getAgent 7 = some ⟨.individual, 7⟩ ∧ k'.getAgent 7 = none ∧ s.issuer = 9 :=
  open Sample in
  ⟨Sample.E, feed Sample.E k0 [.dlg x7, .prekey card7], ((feed Sample.E k0 [.dlg x7, .prekey card7]).receive Sample.E (.rev ⟨9, 9001, hashDlg x7, none, []⟩)).1,
    ⟨9, 9001, hashDlg x7, none, []⟩, .group .invalidProofChain, E_noClash, reach_feed reach_k0, Prod.ext rfl (by decide +kernel), rfl,
    by decide +kernel, by decide +kernel, rfl⟩

end RefuseProps

end Verif.Keyhive
