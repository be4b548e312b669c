import Verif.Keyhive.Keyed
import Verif.Keyhive.ReadProps

/-!
# Property theorems: the key handed out with content (C130), and the secret an archive is written with (C131)

`k.encryptContentKeyed E L did r ps p` writes the content `p` with reference `r` and predecessors `ps` to the document `did` and gives the
ciphertext, the key operation that was made if any, and the key. `e.openWith key` is the attempt to open a ciphertext with a key.
-/

namespace Verif.Cgka

open Verif.BeeKem

/-- The secret that is made. -/
theorem newAppSecret_is {H : SOp → Nat} {sign : Payload → Res SOp} {g : BeeKem.Gen} {n : Nat} {c c' : Cgka} {r ps : Nat} {s : AppSecret}
    {op : Option SOp} (h : c.newAppSecretFor H sign g n r ps = (c', .ok (s, op))) :
    ∃ k o, s = deriveApplicationSecret k r ps o := by
  have fin : ∀ {c1 : Cgka} {k : Sk} {o : Option SOp}, c1.finishAppSecret k o r ps = (c', .ok (s, op)) →
      ∃ k o, s = deriveApplicationSecret k r ps o := by
    intro c1 k o h
    unfold Cgka.finishAppSecret at h
    split at h
    · cases h
    · cases h; exact ⟨_, _, rfl⟩
  unfold Cgka.newAppSecretFor at h
  split at h
  · cases h
  · split at h
    · cases h
    · exact fin h
  · split at h
    · cases h
    · split at h
      · exact fin h
      · split at h <;> exact fin h

end Verif.Cgka

namespace Verif.Keyhive.KeyedProps

open Verif.Group Verif.Cgka Verif.BeeKem Verif.Keyhive Verif.Keyhive.Sample

variable {E : Env}

/-! ## C130: the key handed out with content -/

/-- Writing, with and without the key handed out. -/
theorem keyed_eq (L : Local) (k : Keyhive) (did : Id) (r ps p : Nat) :
    k.encryptContent E L did r ps p = ((k.encryptContentKeyed E L did r ps p).1, (k.encryptContentKeyed E L did r ps p).2.map Prod.fst) := by
  unfold Keyhive.encryptContentKeyed Doc.encryptContentKeyed Keyhive.encryptContent Doc.encryptContent
  cases hd : AMap.get k.docs did with
  | none => rfl
  | some d =>
    dsimp only
    cases hc : d.cgka with
    | none => rfl
    | some c =>
      dsimp only
      rcases hs : c.newAppSecretFor (E.hashCgka did) (L.signCgka did) L.gen 0 r ps with ⟨c', _ | ⟨s, op⟩⟩ <;> rfl

/-- What writing with the key handed out does. -/
theorem keyed_writes {L : Local} {k k' : Keyhive} {did : Id} {r ps p : Nat} {e : EncContent} {op : Option SOp} {key : AppKey}
    (h : k.encryptContentKeyed E L did r ps p = (k', .ok ((e, op), key))) :
    k.encryptContent E L did r ps p = (k', .ok (e, op)) ∧ ∃ s o, key = (deriveApplicationSecret s r ps o).key ∧
      e = (deriveApplicationSecret s r ps o).encrypt p := by
  refine ⟨by rw [keyed_eq, h]; rfl, ?_⟩
  unfold Keyhive.encryptContentKeyed Doc.encryptContentKeyed at h
  split at h
  · cases h
  · dsimp only at h
    split at h
    · cases h
    · split at h
      · cases h
      · rename_i c1 s op' hs
        cases h
        obtain ⟨x, o, rfl⟩ := newAppSecret_is hs
        exact ⟨x, o, rfl, rfl⟩

/-- Every ciphertext that is written is sealed for its reference and predecessors. -/
theorem written_is {L : Local} {k k' : Keyhive} {did : Id} {r ps p : Nat} {e : EncContent} {op : Option SOp}
    (h : k.encryptContent E L did r ps p = (k', .ok (e, op))) : ∃ s o, e = (deriveApplicationSecret s r ps o).encrypt p := by
  unfold Keyhive.encryptContent Doc.encryptContent at h
  split at h
  · cases h
  · dsimp only at h
    split at h
    · cases h
    · split at h
      · cases h
      · rename_i c1 s op' hs
        cases h
        obtain ⟨x, o, rfl⟩ := newAppSecret_is hs
        exact ⟨x, o, rfl⟩

/-- C130, writing: being handed the key changes nothing about what is written, and the key opens it. -/
theorem C130_written {L : Local} {k k' : Keyhive} {did : Id} {r ps p : Nat} {e : EncContent} {op : Option SOp} {key : AppKey}
    (h : k.encryptContentKeyed E L did r ps p = (k', .ok ((e, op), key))) :
    k.encryptContent E L did r ps p = (k', .ok (e, op)) ∧ e.openWith key = some p := by
  obtain ⟨h1, s, o, rfl, rfl⟩ := keyed_writes h
  exact ⟨h1, by simp [EncContent.openWith, AppSecret.encrypt]⟩

/-- C130, writing, if it fails: so does writing without being handed the key, with the same effect. -/
theorem C130_refused {L : Local} {k k' : Keyhive} {did : Id} {r ps p : Nat} {x : Err} :
    k.encryptContentKeyed E L did r ps p = (k', .error x) ↔ k.encryptContent E L did r ps p = (k', .error x) := by
  rw [keyed_eq]
  rcases h : k.encryptContentKeyed E L did r ps p with ⟨k1, _ | v⟩
  · simp [Except.map]
  · simp [Except.map]

/-- C130, reading: whoever reads the content, on whatever device, is handed the key it was written with. -/
theorem C130_read {L : Local} {k k' : Keyhive} {did : Id} {r ps p : Nat} {e : EncContent} {op : Option SOp} {key : AppKey}
    (h : k.encryptContentKeyed E L did r ps p = (k', .ok ((e, op), key)))
    {E2 : Env} {k2 k2' : Keyhive} {did2 : Id} {p2 : Nat} {key2 : AppKey} (h2 : k2.decryptContent E2 did2 e = (k2', .ok (p2, key2))) :
    p2 = p ∧ key2 = key := by
  obtain ⟨-, s, o, rfl, rfl⟩ := keyed_writes h
  unfold Keyhive.decryptContent at h2
  split at h2
  · cases h2
  · rename_i d hd
    have h3 := (Prod.mk.inj h2).2
    unfold Doc.decryptContent at h3
    split at h3
    · cases h3
    · split at h3
      · cases h3
      · rename_i key' hk
        dsimp only at h3
        unfold EncContent.openWith at h3
        split at h3
        · rename_i plain hp
          cases h3
        · rename_i plain hp
          cases h3
          split at hp
          · rename_i he
            cases hp
            exact ⟨rfl, he⟩
          · cases hp

/-- C130, nothing else: of all content ever written, on whatever device and to whatever document, the key opens only what has the same reference
and predecessors and was written with the same group secret. -/
theorem C130_only {L : Local} {k k' : Keyhive} {did : Id} {r ps p : Nat} {e : EncContent} {op : Option SOp} {key : AppKey}
    (h : k.encryptContentKeyed E L did r ps p = (k', .ok ((e, op), key)))
    {E2 : Env} {L2 : Local} {k2 k2' : Keyhive} {did2 : Id} {r2 ps2 p2 : Nat} {e2 : EncContent} {op2 : Option SOp}
    (h2 : k2.encryptContent E2 L2 did2 r2 ps2 p2 = (k2', .ok (e2, op2))) (ho : e2.openWith key ≠ none) :
    r2 = r ∧ ps2 = ps ∧ e2.pcsKeyHash = e.pcsKeyHash := by
  obtain ⟨-, s, o, rfl, rfl⟩ := keyed_writes h
  obtain ⟨s2, o2, rfl⟩ := written_is h2
  unfold EncContent.openWith at ho
  split at ho
  · rename_i he
    simp only [AppSecret.encrypt, deriveApplicationSecret, AppKey.mk.injEq] at he ⊢
    obtain ⟨h1, h2, h3⟩ := he
    exact ⟨h3.symm, h2.symm, by rw [h1]⟩
  · exact absurd rfl ho

/-- Agent 5 writes 42 to the document, and is handed the key. -/
theorem key_given : ∃ e op, w1.encryptContentKeyed ER LR 300 7 8 42 = (w2, .ok ((e, op), ⟨701, 8, 7⟩)) ∧
    (w2.decryptContent ER 300 e).2 = .ok (42, ⟨701, 8, 7⟩) := by
  have h : (w1.encryptContentKeyed ER LR 300 7 8 42).2.toOption.map (fun v => (v.1.1, v.2)) =
      some (⟨⟨701, 8, 7⟩, 42, ⟨701⟩, 2, 7, 8⟩, ⟨701, 8, 7⟩) := by decide +kernel
  have h2 : w2 = (w1.encryptContentKeyed ER LR 300 7 8 42).1 := by
    show (w1.encryptContent ER LR 300 7 8 42).1 = _
    rw [keyed_eq]
  cases hr : (w1.encryptContentKeyed ER LR 300 7 8 42).2 with
  | error x => rw [hr] at h; cases h
  | ok v =>
    obtain ⟨⟨e, op⟩, key⟩ := v
    rw [hr] at h
    cases h
    exact ⟨_, op, Prod.ext h2.symm hr, by decide +kernel⟩

/-! ## C131: the secret an archive is written with -/

/-- C131, a document without a current group secret: a new secret is made for the archive, and the operation that tells the members is handed
back; otherwise the archive is written like any other content. Missing: a new secret where there is a current one (`C131_fails`). -/
theorem C131_new_partial {L : Local} {k k' : Keyhive} {did : Id} {r ps p : Nat} {e : EncContent} {op : Option SOp}
    (h : k.encryptArchive E L did r ps p = (k', .ok (e, op))) {d : Doc} {c : Cgka} (hd : AMap.get k.docs did = some d) (hc : d.cgka = some c) :
    (c.hasPcsKey = .ok false → ∃ o, op = some o) ∧ k.encryptContent E L did r ps p = (k', .ok (e, op)) := by
  refine ⟨fun hn => ?_, h⟩
  unfold Keyhive.encryptArchive Keyhive.encryptContent Doc.encryptContent at h
  rw [hd] at h
  dsimp only at h
  rw [hc] at h
  dsimp only at h
  split at h
  · cases h
  · rename_i c1 s op' hs
    cases h
    unfold Cgka.newAppSecretFor at hs
    rw [hn] at hs
    dsimp only at hs
    split at hs
    · cases hs
    · unfold Cgka.finishAppSecret at hs
      split at hs
      · cases hs
      · cases hs; exact ⟨_, rfl⟩

/-- C131 fails: the archive is written with the secret with which the content before it was written, and no operation is made. -/
theorem C131_fails : ∃ (E : Env) (L : Local) (k0 k1 k2 : Keyhive) (did : Id) (e1 e2 : EncContent) (op : Option SOp), Reach E k0 ∧ L.Honest E ∧
    k0.encryptContent E L did 7 8 42 = (k1, .ok (e1, op)) ∧ k1.encryptArchive E L did 9 7 43 = (k2, .ok (e2, none)) ∧
    e1.sealedBy.pcs = e2.sealedBy.pcs := by
  have h1 : (w1.encryptContent ER LR 300 7 8 42).2.toOption.map Prod.fst = some ⟨⟨701, 8, 7⟩, 42, ⟨701⟩, 2, 7, 8⟩ := by decide +kernel
  have h2 : (w2.encryptArchive ER LR 300 9 7 43).2.toOption = some (⟨⟨701, 7, 9⟩, 43, ⟨701⟩, 2, 9, 7⟩, none) := by decide +kernel
  cases r1 : (w1.encryptContent ER LR 300 7 8 42).2 with
  | error x => rw [r1] at h1; cases h1
  | ok v1 =>
    cases r2 : (w2.encryptArchive ER LR 300 9 7 43).2 with
    | error x => rw [r2] at h2; cases h2
    | ok v2 =>
      obtain ⟨e1, op⟩ := v1
      rw [r1] at h1
      rw [r2] at h2
      cases h1
      cases h2
      exact ⟨ER, LR, w1, w2, _, 300, _, _, op, reach_w1, LR_honest, Prod.ext rfl r1, Prod.ext rfl r2, rfl⟩

-- After somebody was added the document has no current secret.
example : (treeOf w3 300).any (fun c => decide (c.hasPcsKey = .ok false)) = true ∧
    (w3.encryptArchive ER LR 300 7 8 42).2.toOption.isSome = true := by decide +kernel

end Verif.Keyhive.KeyedProps
