import Verif.Keyhive.WriterProps

/-! # C134 — Only editors write

`Access::Edit` is "the ability to edit (append ops to) the content of a document", one level above `Access::Read`
(access.rs:33-37). -/

namespace Verif.Keyhive

open Verif.Group Verif.Cgka Verif.BeeKem

variable {E : Env}

namespace EditorSample

open Verif.Keyhive.Sample FleetSample PlaceSample WriterSample

/-- The delegations Alice's device receives: agent 5 is the admin of the document, Alice may read it. -/
def given : List Event := [.dlg rootDlg, .dlg ⟨5, 5001, 1, .read, some (hashDlg rootDlg), [], []⟩]
/-- Alice's device, which has received everything from agent 5's. -/
noncomputable def reader : Keyhive := feed EF (Keyhive.start regA [(⟨11⟩, 11)]) (given ++ [t0, t1, t2, t3, t5].map (.cgka 300 ·))

theorem d3_only : OnlyDevice EF 5 d3 :=
  .call (.encrypt L2 300 7 8 42) (.call (.addToDoc L 300 ⟨.individual, 1⟩ .read []) (.call (.newDoc L sg 300 [] [1])
    (.start reg [(⟨55⟩, 55)] rfl (Verif.Cgka.Sample.honest_one 55) rfl) trivial ⟨sg_signs _, L_honest _⟩ L_good L_as) trivial (L_honest _) L_good L_as)
    trivial (L2_honest _) L2_good (fun _ _ _ h => by cases h; rfl)

theorem given_no : ∀ did op, Event.cgka did op ∉ given := by intro _ _ h; simp [given] at h

theorem reader_only : OnlyDevice EF 1 reader := by
  refine mail_only (only_fleet d3_only) (.start regA [(⟨11⟩, 11)] rfl (Verif.Cgka.Sample.honest_one 11) rfl) given given_no _ (by decide +kernel) ?_
    (by decide)
  refine not_public ?_
  intro op ho
  simp only [List.mem_cons, List.not_mem_nil, or_false] at ho
  rcases ho with rfl | rfl | rfl | rfl | rfl <;> exact fun h => absurd (show (_ : Nat) = _ from h) (by decide)

theorem wrote_r : ((reader.encryptContent EF LA 300 9 8 43).2.toOption.map (·.1)).isSome = true := by decide +kernel
/-- What Alice writes. -/
noncomputable def edit : EncContent := ((reader.encryptContent EF LA 300 9 8 43).2.toOption.map (·.1)).get wrote_r
theorem edit_eq : ∃ o, (reader.encryptContent EF LA 300 9 8 43).2 = .ok (edit, o) := by
  have h : ((reader.encryptContent EF LA 300 9 8 43).2.toOption.map (·.1)) = some edit := (Option.some_get wrote_r).symm
  cases hq : (reader.encryptContent EF LA 300 9 8 43).2 with
  | error e => rw [hq] at h; cases h
  | ok p => obtain ⟨a, b⟩ := p; rw [hq] at h; cases h; exact ⟨b, rfl⟩
theorem edit_read : ((d3.decryptContent EF 300 edit).2.toOption.map (·.1)) = some 43 := by decide +kernel

end EditorSample

namespace EditorProps

/-- C134, how far it is from holding: who is a member of the document and with which access plays no part when content is written or read or keys are
replaced. With any other members `g` in their place, on any device, the calls give the same. -/
theorem C134_unchecked (k : Keyhive) (did : Id) (d : Doc) (g : Group.Group) (hd : AMap.get k.docs did = some d) (L : Local) :
    (∀ r ps x, ((k.setDoc did { d with group := g }).encryptContent E L did r ps x).2 = (k.encryptContent E L did r ps x).2) ∧
    (∀ e, ((k.setDoc did { d with group := g }).decryptContent E did e).2 = (k.decryptContent E did e).2) ∧
    ((k.setDoc did { d with group := g }).forcePcsUpdate E L did).2 = (k.forcePcsUpdate E L did).2 := by
  have hs : AMap.get (k.setDoc did { d with group := g }).docs did = some { d with group := g } := by rw [get_setDoc hd, if_pos rfl]
  refine ⟨fun r ps x => ?_, fun e => ?_, ?_⟩
  · unfold Keyhive.encryptContent
    rw [hs, hd]
    simp only [Doc.encryptContent]
    cases d.cgka with
    | none => rfl
    | some c => dsimp only; split <;> rfl
  · unfold Keyhive.decryptContent
    rw [hs, hd]
    simp only [Doc.decryptContent]
    cases d.cgka with
    | none => rfl
    | some c => dsimp only; split <;> rfl
  · unfold Keyhive.forcePcsUpdate
    rw [hs, hd]
    simp only [Doc.pcsUpdate]
    cases d.cgka with
    | none => rfl
    | some c => dsimp only; split <;> rfl

-- The document in which Alice may only read.
open EditorSample in
example : ∃ d, AMap.get reader.docs 300 = some d ∧ (d.group.getCapability 1).map (·.can) = some .read := by
  have h : (AMap.get reader.docs 300).bind (fun d => (d.group.getCapability 1).map (·.can)) = some .read := by decide +kernel
  cases hd : AMap.get reader.docs 300 with
  | none => rw [hd] at h; cases h
  | some d => rw [hd] at h; exact ⟨d, rfl, h⟩

/-- C134 fails: agent 5 creates a document, makes Alice a reader and writes. Both devices run the library and both know that Alice may only read. Alice
writes in the document, and agent 5's device accepts what they have written. -/
theorem C134_fails : ∃ (E : Env) (a x : Keyhive) (L : Local) (e : EncContent) (o : Option SOp) (da dx : Doc),
    (∀ i, Function.Injective (E.hashCgka i)) ∧ OnlyDevice E 1 a ∧ OnlyDevice E 5 x ∧ L.Honest E ∧ (∀ doc, GoodSigner (L.signCgka doc)) ∧
    AMap.get a.docs 300 = some da ∧ (da.group.getCapability 1).map (·.can) = some .read ∧
    AMap.get x.docs 300 = some dx ∧ (dx.group.getCapability 1).map (·.can) = some .read ∧
    (a.encryptContent E L 300 9 8 43).2 = .ok (e, o) ∧ ∃ key, (x.decryptContent E 300 e).2 = .ok (43, key) := by
  open FleetSample Verif.Keyhive.Sample WriterSample EditorSample in
  have get : ∀ {k : Keyhive}, (AMap.get k.docs 300).bind (fun d => (d.group.getCapability 1).map (·.can)) = some .read →
      ∃ d, AMap.get k.docs 300 = some d ∧ (d.group.getCapability 1).map (·.can) = some .read := by
    intro k h
    cases hd : AMap.get k.docs 300 with
    | none => rw [hd] at h; cases h
    | some d => rw [hd] at h; exact ⟨d, rfl, h⟩
  obtain ⟨da, h1, h2⟩ := get (k := reader) (by decide +kernel)
  obtain ⟨dx, h3, h4⟩ := get (k := d3) (by decide +kernel)
  obtain ⟨o, ho⟩ := edit_eq
  refine ⟨EF, reader, d3, LA, edit, o, da, dx, EF_inj, reader_only, d3_only, LA_honest _, LA_good, h1, h2, h3, h4, ho, ?_⟩
  have := edit_read
  cases hq : (d3.decryptContent EF 300 edit).2 with
  | error e => rw [hq] at this; cases this
  | ok p => obtain ⟨y, key⟩ := p; rw [hq] at this; cases this; exact ⟨key, rfl⟩

end EditorProps

end Verif.Keyhive
