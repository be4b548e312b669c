import Verif.Cgka.PublicProps
import Verif.Keyhive.KeptSample
import Verif.Keyhive.ReadLemmas
import Verif.Keyhive.BridgeLemmas

/-! # Properties of documents that are public (C111) -/

namespace Verif.Keyhive

open Verif.Group Verif.Cgka Verif.BeeKem

theorem closed_public (H : SOp → Nat) : Closed1 H (fun _ _ => True) (fun c => Only c.ownerSks (shareKey publicSk) publicSk) :=
  ⟨fun _ _ => Only.insert_self _ _ _, fun _ _ _ => Only.insert_self _ _ _, fun id pk _ h => add_only h _ id pk,
   fun id _ h => remove_only h _ id, fun {_ _ g} _ h => update_only h _ g 1 (g 0), fun {_ _ g} r ps _ h => encrypt_only h _ g 0 r ps,
   fun e h => decrypt_only h e, fun op h => receive_only h op⟩

theorem reach_public {E : Env} {k : Keyhive} (h : Reach E k) : Trees (fun _ c => Only c.ownerSks (shareKey publicSk) publicSk) k := by
  induction h with
  | start reg pairs => exact trees_start reg pairs
  | call c h hc ih =>
    refine trees_call (Q := fun _ _ => True) (fun i => closed_public (E.hashCgka i)) ih c hc ?_
    cases c <;> first | exact trivial | exact fun _ => trivial

namespace PublicSample

open Verif.Keyhive.Sample
open Verif.Cgka.PublicSample

/-- Digests and signatures in the example. -/
noncomputable def EP : Env := env Verif.Cgka.PublicSample.H

/-- The device of agent 5, who is not a member, receives what Alice has done in document 300. -/
noncomputable def five : Keyhive := feed EP k0 [.dlg docAlice, .cgka 300 v0, .cgka 300 v1, .cgka 300 v2]
theorem five_reach : Reach EP five := reach_feed' (.start reg [(⟨55⟩, 55)])

/-- Its key tree after the second operation. -/
noncomputable def mid : Cgka := step Verif.Cgka.PublicSample.H (start.withNewOwner MemberId.pub [(⟨0⟩, 0)]) (.receive v1)
/-- The key tree it then has. -/
noncomputable def tree : Cgka := step Verif.Cgka.PublicSample.H (mid.withNewOwner 5 [(⟨0⟩, 0)]) (.receive v2)

theorem five_tree : (AMap.get five.docs 300).bind (fun d => d.cgka) = some tree := by decide +kernel

theorem owned {c : Cgka} (h : Trusted Verif.Cgka.PublicSample.H c) (me : Id) :
    Trusted Verif.Cgka.PublicSample.H (c.withNewOwner me [(⟨0⟩, 0)]) :=
  .owner me _ h (Verif.Cgka.Sample.honest_one 0)

theorem tree_trusted : Trusted Verif.Cgka.PublicSample.H tree :=
  .receive (owned (.receive (owned start_trusted _) alice2_trusted (known v1 (by simp))) 5) alice2_trusted (known v2 (by simp))

end PublicSample

namespace PublicProps

variable {E : Env}

/-- C111: on every device, every document has the public individual's secret at hand. -/
theorem C111_secret_at_hand {k : Keyhive} (hk : Reach E k) {did : Id} {d : Doc} {c : Cgka} (hd : AMap.get k.docs did = some d)
    (hc : d.cgka = some c) : AMap.get c.ownerSks (shareKey publicSk) = some publicSk :=
  (reach_public hk did d hd c hc).1

/-- C111: a device reads whatever was written in a document by a device that had the public individual, with its well-known key, among the
members of the document's group, provided the writer and the reader run the library (`Trusted`), the reader has received the operations the
writer had, and the conditions of C80 hold. The reader need not be a member. -/
theorem C111_public_document_partial {k : Keyhive} (hk : Reach E k) {did : Id} (hH : Function.Injective (E.hashCgka did)) {d : Doc} {b : Cgka}
    (hd : AMap.get k.docs did = some d) (hc : d.cgka = some b) (hb : Trusted (E.hashCgka did) b) {a a' : Cgka}
    (ha : Trusted (E.hashCgka did) a) {sign : Payload → Res SOp} (hs : GoodSigner sign) {g : BeeKem.Gen} {n r ps : Nat} {s : AppSecret}
    {op : Option SOp} (he : a.newAppSecretFor (E.hashCgka did) sign g n r ps = (a', .ok (s, op))) (h1 : ChangesApart b)
    (h2 : UpdatesInTurn b) (h3 : FreshKeys b) (hkn : ∀ x, Knows a' x → Knows b x) (hh : a'.graph.heads = [s.pcsUpdateOpHash])
    (hm : a'.tree.nodeKeyForId MemberId.pub = .ok (.share (shareKey publicSk))) (p : Nat) :
    ∃ key, (k.decryptContent E did (s.encrypt p)).2 = .ok (p, key) := by
  obtain ⟨key, e1, e2⟩ := Verif.Cgka.PublicProps.C111_public_content_partial hH ha hb hs he h1 h2 h3 hkn hh
    ⟨_, _, hm, C111_secret_at_hand hk hd hc⟩ p
  refine ⟨key, ?_⟩
  unfold Keyhive.decryptContent
  rw [hd]
  dsimp only
  unfold Doc.decryptContent
  rw [hc]
  dsimp only
  cases hq : b.decryptionKeyFor (E.hashCgka did) (s.encrypt p) with
  | mk c' x =>
    rw [hq] at e1
    dsimp only at e1
    subst e1
    dsimp only
    rw [e2]

-- Agent 5, who is not a member of document 300, can read what Alice writes after making it public.
open PublicSample in
open Verif.Cgka.PublicSample in
example : Reach EP five ∧ Function.Injective (EP.hashCgka 300) ∧ (∃ d, AMap.get five.docs 300 = some d ∧ d.cgka = some tree) ∧
    Trusted (EP.hashCgka 300) tree ∧ Trusted (EP.hashCgka 300) alice1 ∧ GoodSigner (Verif.Cgka.PublicSample.sign 1502) ∧
    ChangesApart tree ∧ UpdatesInTurn tree ∧ FreshKeys tree ∧ tree.ownerId = 5 ∧ tree.tree.containsId 5 = false ∧
    (match alice1.newAppSecretFor (EP.hashCgka 300) (Verif.Cgka.PublicSample.sign 1502) Verif.Cgka.Sample.gen 0 5 6 with
      | (a', .ok (s, some _)) => decide (∀ x ∈ AMap.keys a'.graph.ops, AMap.contains tree.graph.ops x = true) &&
          decide (a'.graph.heads = [s.pcsUpdateOpHash]) &&
          decide (a'.tree.nodeKeyForId MemberId.pub = .ok (.share (shareKey publicSk)))
      | _ => false) = true := by
  refine ⟨five_reach, Verif.Cgka.PublicSample.H_inj, ?_, tree_trusted, alice1_trusted, sign_good 1502, changes_of (by decide +kernel),
    turns_of (by decide +kernel), fresh_of (by decide +kernel), by decide +kernel, by decide +kernel, by decide +kernel⟩
  have := five_tree
  cases hd : AMap.get five.docs 300 with
  | none => rw [hd] at this; cases this
  | some d => rw [hd] at this; exact ⟨d, rfl, this⟩

end PublicProps

end Verif.Keyhive
