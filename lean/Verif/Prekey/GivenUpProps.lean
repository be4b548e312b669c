import Verif.Prekey.GivenUp
import Verif.Prekey.Sample

/-! # C143 — giving up a call on the prekeys -/

namespace Verif.Prekey.GivenUpProps

/-- The active agent on one device, some of whose calls were given up half way. Calls that change the individual before the
secret is stored, that is `expand_prekeys`, are given up before they start or not at all. -/
inductive Patient (H : KeyOp → Nat) (valid : KeyOp → Bool) (pk : Secret → Key) (S : Body → Option KeyOp) (me : Id) :
    Active → Prop
  | generate {a : Active} (init : Secret) (others : List Secret)
      (h : Active.generate H valid pk S me init others = .ok a) : Patient H valid pk S me a
  | rotate {a : Active} (n : Nat) (old : Key) (sk : Secret) (h : Patient H valid pk S me a) :
      Patient H valid pk S me (a.rotateUpTo H pk S n old sk)
  | contactCard {a : Active} (n : Nat) (picked : Key) (sk₁ sk₂ : Secret) (h : Patient H valid pk S me a) :
      Patient H valid pk S me (a.privateUpTo H pk S n picked sk₁ sk₂)
  | expand {a a' : Active} {op : KeyOp} (sk : Secret) (h : Patient H valid pk S me a)
      (hr : a.expandPrekeys H pk S sk = .ok (a', op)) : Patient H valid pk S me a'
  | importSecrets {a : Active} (m : AMap Key Secret) (hm : ∀ k sk, (k, sk) ∈ m → pk sk = k)
      (h : Patient H valid pk S me a) : Patient H valid pk S me (a.importSecrets m)

/-- Each secret is stored under its own key, and each advertised key has its secret. -/
def Sound (pk : Secret → Key) (a : Active) : Prop :=
  (∀ k sk, AMap.get a.pairs k = some sk → pk sk = k) ∧ ∀ k ∈ a.indie.prekeys, AMap.contains a.pairs k = true

theorem Sound.stored {pk : Secret → Key} {a : Active} (h : Sound pk a) (sk : Secret) :
    Sound pk { a with pairs := AMap.insert a.pairs (pk sk) sk } := by
  refine ⟨fun k s hk => ?_, fun k hk => ?_⟩
  · rw [AMap.get_insert] at hk
    split at hk
    · rename_i hc
      cases hk
      exact hc.symm
    · exact h.1 k s hk
  · show AMap.contains (AMap.insert a.pairs (pk sk) sk) k = true
    unfold AMap.contains
    rw [AMap.get_insert]
    split
    · rfl
    · exact h.2 k hk

theorem Sound.rotate {H : KeyOp → Nat} {pk : Secret → Key} {S : Body → Option KeyOp} {a : Active} (h : Sound pk a) (n : Nat)
    (old : Key) (sk : Secret) : Sound pk (a.rotateUpTo H pk S n old sk) := by
  unfold Active.rotateUpTo
  split
  · exact h
  · rename_i op _
    by_cases h2 : 2 ≤ n
    · have h1 : 1 ≤ n := by omega
      simp only [h1, h2, if_true]
      refine ⟨(h.stored sk).1, fun k hk => ?_⟩
      simp only [Indie.rotate, mem_sinsert, mem_sremove] at hk
      rcases hk with rfl | hk
      · simp [AMap.contains]
      · exact (h.stored sk).2 k hk.2
    · by_cases h1 : 1 ≤ n
      · simp only [h1, h2, if_true, if_false]
        exact h.stored sk
      · simp only [h1, h2, if_false]
        exact h

theorem Patient.sound {H : KeyOp → Nat} {valid : KeyOp → Bool} {pk : Secret → Key} {S : Body → Option KeyOp} {me : Id}
    (hS : SignsFor valid me S) {a : Active} (h : Patient H valid pk S me a) : Sound pk a := by
  induction h with
  | generate init others h => exact (Device.generate init others h).inv hS
  | rotate n old sk _ ih => exact ih.rotate n old sk
  | contactCard n picked sk₁ sk₂ _ ih =>
    unfold Active.privateUpTo
    split
    · exact ih
    · dsimp only
      split
      · exact (ih.rotate n picked sk₁).rotate _ _ _
      · exact ih.rotate n picked sk₁
  | expand sk _ hr ih =>
    unfold Active.expandPrekeys at hr
    split at hr
    · cases hr
    · cases hr
      refine ⟨(ih.stored sk).1, fun k hk => ?_⟩
      simp only [Indie.expand, mem_sinsert] at hk
      rcases hk with rfl | hk
      · simp [AMap.contains]
      · exact (ih.stored sk).2 k hk
  | importSecrets m hm _ ih =>
    obtain ⟨p1, p2⟩ := import_good hm ih.1
    exact ⟨p1, fun k hk => p2 k (ih.2 k hk)⟩

/-- C143: a call that is not given up is the call itself, whether it succeeds or fails. -/
theorem C143_whole (H : KeyOp → Nat) (pk : Secret → Key) (S : Body → Option KeyOp) (a : Active) (old : Key) (sk : Secret)
    (n : Nat) (hn : 2 ≤ n) :
    (∀ a' op, a.rotatePrekey H pk S old sk = .ok (a', op) → a.rotateUpTo H pk S n old sk = a') ∧
    (∀ e, a.rotatePrekey H pk S old sk = .error e → a.rotateUpTo H pk S n old sk = a) ∧
    (∀ a' op, a.expandPrekeys H pk S sk = .ok (a', op) → a.expandUpTo H pk S n sk = a') ∧
    (∀ e, a.expandPrekeys H pk S sk = .error e → a.expandUpTo H pk S n sk = a) := by
  have h1 : 1 ≤ n := by omega
  unfold Active.rotatePrekey Active.rotateUpTo Active.expandPrekeys Active.expandUpTo
  cases S (.rotate old (pk sk)) <;> cases S (.add (pk sk)) <;> simp [hn, h1]

/-- C143: a rotation that is given up before it is complete leaves what others see as it was: the old prekey is not retired
and the new one not shown; and a call that is given up before its first section changes nothing. -/
theorem C143_unseen (H : KeyOp → Nat) (pk : Secret → Key) (S : Body → Option KeyOp) (a : Active) (old : Key) (sk : Secret) :
    (∀ n, n < 2 → (a.rotateUpTo H pk S n old sk).indie = a.indie) ∧
    a.rotateUpTo H pk S 0 old sk = a ∧ a.expandUpTo H pk S 0 sk = a := by
  refine ⟨fun n hn => ?_, ?_, ?_⟩
  · unfold Active.rotateUpTo
    have h2 : ¬ 2 ≤ n := by omega
    cases S (.rotate old (pk sk))
    · rfl
    · by_cases h1 : 1 ≤ n <;> simp [h1, h2]
  · unfold Active.rotateUpTo; cases S (.rotate old (pk sk)) <;> simp
  · unfold Active.expandUpTo; cases S (.add (pk sk)) <;> simp

/-- C143: whenever a call is given up, no secret is lost: a key whose secret was known is one whose secret is known. -/
theorem C143_secrets_kept (H : KeyOp → Nat) (pk : Secret → Key) (S : Body → Option KeyOp) (a : Active) (old : Key)
    (sk sk₂ : Secret) (n : Nat) (k : Key) (hk : k ∈ AMap.keys a.pairs) :
    k ∈ AMap.keys (a.rotateUpTo H pk S n old sk).pairs ∧ k ∈ AMap.keys (a.expandUpTo H pk S n sk).pairs ∧
    k ∈ AMap.keys (a.privateUpTo H pk S n old sk sk₂).pairs := by
  have ins : ∀ {m : AMap Key Secret} (x : Key) (y : Secret), k ∈ AMap.keys m → k ∈ AMap.keys (AMap.insert m x y) := by
    intro m x y h
    rw [← AMap.contains_iff] at h ⊢
    unfold AMap.contains at h ⊢
    rw [AMap.get_insert]
    split
    · rfl
    · exact h
  have rot : ∀ (b : Active) n old sk, k ∈ AMap.keys b.pairs → k ∈ AMap.keys (b.rotateUpTo H pk S n old sk).pairs := by
    intro b n old sk h
    unfold Active.rotateUpTo
    split
    · exact h
    · by_cases h1 : 1 ≤ n <;> by_cases h2 : 2 ≤ n <;> simp only [h1, h2, if_true, if_false] <;>
        first | exact ins _ _ h | exact h
  refine ⟨rot a n old sk hk, ?_, ?_⟩
  · unfold Active.expandUpTo
    split
    · exact hk
    · by_cases h1 : 1 ≤ n <;> by_cases h2 : 2 ≤ n <;> simp only [h1, h2, if_true, if_false] <;>
        first | exact ins _ _ hk | exact hk
  · unfold Active.privateUpTo
    split
    · exact hk
    · dsimp only
      split
      · exact rot _ _ _ _ (rot a n old sk hk)
      · exact rot a n old sk hk

/-- C143, the part that holds: on a device that generated the agent, rotated prekeys and made contact cards, giving up any of
these calls at any point, expanded and imported, the secret of every prekey that others see is known. Missing: calls of
`expand_prekeys` given up between their two sections (`C143_fails`). -/
theorem C143_secret_partial {H : KeyOp → Nat} {valid : KeyOp → Bool} {pk : Secret → Key} {S : Body → Option KeyOp} {me : Id}
    (hS : SignsFor valid me S) {a : Active} (h : Patient H valid pk S me a) (k : Key) (hk : k ∈ a.indie.prekeys) :
    ∃ sk, AMap.get a.pairs k = some sk ∧ pk sk = k := by
  obtain ⟨h1, h2⟩ := h.sound hS
  have := h2 k hk
  unfold AMap.contains at this
  rw [Option.isSome_iff_exists] at this
  obtain ⟨sk, hsk⟩ := this
  exact ⟨sk, hsk, h1 k sk hsk⟩

/-- The device of the examples. -/
def dev : Active := (Active.generate Sample.H Sample.valid id (Sample.sign 7) 7 1 [2, 3]).toOption.getD
  ⟨Indie.new Sample.H (Sample.add 1), []⟩

theorem dev_patient : Patient Sample.H Sample.valid id (Sample.sign 7) 7 dev :=
  .generate 1 [2, 3] (by decide +kernel)

/-- A rotation given up after the secret is stored, and a contact card given up in the middle: the key of the card is shown. -/
example : Patient Sample.H Sample.valid id (Sample.sign 7) 7
      ((dev.rotateUpTo Sample.H id (Sample.sign 7) 1 2 9).privateUpTo Sample.H id (Sample.sign 7) 3 3 10 11) ∧
    (∀ k ∈ [1, 2, 3, 9, 10, 11], k ∈ ((dev.rotateUpTo Sample.H id (Sample.sign 7) 1 2 9).privateUpTo Sample.H id
      (Sample.sign 7) 3 3 10 11).indie.prekeys ↔ k ∈ [1, 2, 10]) ∧
    ∀ k ∈ [1, 2, 3, 9, 10, 11], k ∈ AMap.keys ((dev.rotateUpTo Sample.H id (Sample.sign 7) 1 2 9).privateUpTo Sample.H id
      (Sample.sign 7) 3 3 10 11).pairs :=
  ⟨(dev_patient.rotate 1 2 9).contactCard 3 3 10 11, by decide +kernel, by decide +kernel⟩

/-- C143 fails for new prekeys: when `expand_prekeys` is given up between its two sections, others see a prekey, which may be
chosen to reach its owner and which is in the archive, whose secret nobody has. -/
theorem C143_fails :
    ∃ (H : KeyOp → Nat) (valid : KeyOp → Bool) (pk : Secret → Key) (S : Body → Option KeyOp) (a : Active) (sk : Secret),
      Function.Injective H ∧ SignsFor valid 7 S ∧ Device H valid pk S 7 a ∧
      pk sk ∈ (a.expandUpTo H pk S 1 sk).indie.prekeys ∧ AMap.get (a.expandUpTo H pk S 1 sk).pairs (pk sk) = none :=
  ⟨Sample.H, Sample.valid, id, Sample.sign 7, dev, 9, Sample.H_injective, Sample.signsFor 7,
    .generate 1 [2, 3] (by decide +kernel), by decide +kernel, by decide +kernel⟩

end Verif.Prekey.GivenUpProps
