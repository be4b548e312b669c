import Verif.Keyhive.HeldSpec
import Verif.Keyhive.FleetLemmas

/-! # The key trees of a device that has certain secrets to start from -/

namespace Verif.Keyhive

open Verif.Group Verif.Cgka Verif.BeeKem

variable {E : Env} {K : Sk → Prop}

theorem device_public {H : SOp → Nat} (hp : K publicSk) {c : Cgka} (h : Device H K c) {me : Id} {sks : ShareKeyMap}
    (hs : ∀ p ∈ sks, K p.2 ∨ p ∈ c.ownerSks) : Device H K (withPublic (c.withNewOwner me sks)) := by
  refine Device.owner (c := c) me _ h (fun p h' => ?_)
  rcases List.mem_cons.1 h' with rfl | h'
  · exact .inl hp
  · exact hs p (List.mem_filter.1 h').1

theorem device_new {H : SOp → Nat} (hp : K publicSk) {id : MemberId} {pk : Pk} {op : SOp} {c : Cgka} (h1 : First op.payload id pk)
    (h2 : Cgka.newFromInitAdd H id pk op = .ok c) : Device H K (withPublic c) := by
  refine Device.owner (c := c) c.ownerId _ (.new h1 h2) (fun p h' => ?_)
  rcases List.mem_cons.1 h' with rfl | h'
  · exact .inl hp
  · exact .inr (List.mem_filter.1 h').1

theorem closed_device (H : SOp → Nat) (hp : K publicSk) :
    Closed0 H (fun s g => HonestSigner s ∧ ∀ n, K (g n)) (Device H K) :=
  ⟨fun {id pk op c _ g} me hq _ h1 h2 => device_public hp (device_new hp h1 h2) (fun p h' => by
      rcases List.mem_cons.1 h' with rfl | h'
      · exact .inl (hq.2 0)
      · cases h'),
   fun id pk hq h => .call (cmd := .add _ id pk) h hq.1 trivial, fun id hq h => .call (cmd := .remove _ id) h hq.1 trivial,
   fun {_ _ g} hq h => .call (cmd := .update _ g 1 (g 0)) h hq.1 ⟨hq.2 0, fun m _ => hq.2 m⟩,
   fun {_ _ g} r ps hq h => .call (cmd := .encrypt _ g 0 r ps) h hq.1 (fun m _ => hq.2 m),
   fun e h => .call (cmd := .decrypt e) h trivial trivial⟩

section receiving

variable {H : SOp → Nat} (hp : K publicSk)

include hp

theorem device_mergeCgkaOp {d : Doc} (h : d.Has (Device H K)) (op : SOp) : (d.mergeCgkaOp H op).1.Has (Device H K) := by
  unfold Doc.mergeCgkaOp
  split
  · rename_i c hc
    intro c' h'
    cases h'
    exact .call (cmd := .receive op) (h c hc) trivial trivial
  · split
    · rename_i id pk n preds ps hp'
      split
      · exact h
      · rename_i he
        split
        · exact h
        · rename_i c hc
          intro c' h'
          cases h'
          refine device_new hp ⟨n, ps, ?_⟩ hc
          cases preds with
          | nil => exact hp'
          | cons a l => simp at he
    · exact h

theorem device_invite {d : Doc} (h : d.Has (Device H K)) (op : SOp) {sk : Sk} (hs : K sk) : (d.mergeCgkaInviteOp H op sk).1.Has (Device H K) := by
  unfold Doc.mergeCgkaInviteOp
  split
  · split
    · exact h
    · rename_i c hc
      split
      · exact h
      · refine device_mergeCgkaOp hp ?_ op
        intro c' h'
        cases h'
        refine device_public hp (h c hc) (fun p h' => ?_)
        rcases List.mem_cons.1 h' with rfl | h'
        · exact .inl hs
        · exact .inr (List.mem_filter.1 h').1
  · exact h

theorem device_reset {d : Doc} (h : d.Has (Device H K)) (owner : Id) : (d.resetCgkaOwner owner).1.Has (Device H K) := by
  unfold Doc.resetCgkaOwner
  split
  · exact h
  · rename_i c hc
    intro c' h'
    cases h'
    exact device_public hp (h c hc) (fun p h' => .inr h')

end receiving

/-- What holds on such a device. -/
structure Held (E : Env) (K : Sk → Prop) (k : Keyhive) : Prop where
  trees : Trees (fun i => Device (E.hashCgka i) K) k
  pairs : ∀ p ∈ k.pairs, K p.2

theorem held_receive (hp : K publicSk) {k : Keyhive} (h : Held E K k) (e : Event) : Held E K (k.receive E e).1 := by
  refine ⟨?_, by rw [(receive_self (E := E) k e).pairs]; exact h.pairs⟩
  have ht := h.trees
  cases e with
  | prekey op => exact ht.same rfl
  | cgka i op =>
    show Trees _ (k.receiveCgkaOp E i op).1
    unfold Keyhive.receiveCgkaOp
    split
    · exact ht
    · split
      · exact ht
      · rename_i d hd
        have h0 := ht i d hd
        split
        · split
          · split
            · exact ht
            · rename_i sk hsk
              exact ht.set (device_invite hp h0 op (h.pairs _ (AMap.mem_of_get hsk))) rfl
          · split
            · unfold Keyhive.mergePublicInvite
              have h1 := device_invite hp h0 op hp
              split
              · rename_i heq
                rw [heq] at h1
                exact ht.set h1 rfl
              · rename_i heq
                rw [heq] at h1
                exact ht.set (device_reset hp h1 _) rfl
            · exact ht.set (device_mergeCgkaOp hp h0 op) rfl
        · exact ht.set (device_mergeCgkaOp hp h0 op) rfl
  | dlg s =>
    show Trees _ (k.receiveDelegation E s).1
    unfold Keyhive.receiveDelegation
    repeat' split
    · exact ht
    · exact ht
    · exact ht
    · exact trees_applyDlg ht _
  | rev s =>
    show Trees _ (k.receiveRevocation E s).1
    unfold Keyhive.receiveRevocation
    repeat' split
    · exact ht
    · exact ht
    · exact ht
    · exact trees_applyRev ht _

theorem held_ingest (hp : K publicSk) {k : Keyhive} (h : Held E K k) (ord : List Event → List Event) (events : List Event) :
    Held E K (k.ingest E ord events).1 :=
  ingest_keeps (P := Held E K) (fun _ e h => held_receive hp h e) (fun _ _ h => ⟨h.trees.same rfl, h.pairs⟩) ord events h

theorem fold_held {m l : ShareKeyMap} (h : ∀ p ∈ m, K p.2) (hl : ∀ p ∈ l, K p.2) : ∀ p ∈ l.foldl (fun m p => AMap.insert m p.1 p.2) m, K p.2 := by
  induction l generalizing m with
  | nil => exact h
  | cons q l ih =>
    refine ih (fun p hp => ?_) (fun p hp => hl p (by simp [hp]))
    rcases List.mem_cons.1 hp with rfl | hp
    · exact hl q (by simp)
    · exact h p (List.mem_filter.1 hp).1

theorem Call.Draws.uses {c : Call} (h : c.Draws K) (hc : c.Honest E) : c.Uses (fun s g => HonestSigner s ∧ ∀ n, K (g n)) := by
  cases c <;> first | exact trivial | exact fun doc => ⟨hc.2 doc, h⟩ | exact fun doc => ⟨hc.2.2 doc, h⟩

theorem holder_held (hp : K publicSk) {k : Keyhive} (h : Holder E K k) : Held E K k := by
  induction h with
  | start reg pairs hk => exact ⟨trees_start reg pairs, hk⟩
  | @call k c h hc hd ih =>
    have own : c.Own → Held E K (c.run E k) := fun ho =>
      ⟨trees_own (fun i => closed_device (E.hashCgka i) hp) ih.trees c hc (hd.uses hc) ho, by rw [(own_stock (E := E) (k := k) c ho).2.1]; exact ih.pairs⟩
    cases c with
    | receive e => exact held_receive hp ih e
    | ingest ord events => exact held_ingest hp ih ord events
    | ingestArchive ord a =>
      refine held_ingest (k := k.merged a) hp ⟨ih.trees.same (merged_same k a).docs, ?_⟩ ord _
      unfold Keyhive.merged
      rw [mergeIndies_pairs]
      exact fold_held ih.pairs hd
    | _ => exact own trivial

theorem holder_device (hp : K publicSk) {k : Keyhive} (h : Holder E K k) {did : Id} {d : Doc} {c : Cgka} (hd : AMap.get k.docs did = some d)
    (hc : d.cgka = some c) : Device (E.hashCgka did) K c := (holder_held hp h).trees did d hd c hc

end Verif.Keyhive
