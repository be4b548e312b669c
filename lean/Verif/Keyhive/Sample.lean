import Verif.Keyhive.FadeLemmas
import Verif.Prekey.Sample
import Verif.Cgka.Sample

/-! # Concrete devices for the examples and counterexamples -/

namespace Verif.Keyhive.Sample

open Verif.Group Verif.Cgka Verif.BeeKem

/-- A collision-free number for a list. -/
def encL : List Nat → Nat
  | [] => 0
  | a :: l => Nat.pair a (encL l) + 1

theorem encL_injective : Function.Injective encL := by
  intro a
  induction a with
  | nil => intro b h; cases b with | nil => rfl | cons => simp [encL] at h
  | cons x a ih =>
    intro b h
    cases b with
    | nil => simp [encL] at h
    | cons y b =>
      simp only [encL, Nat.add_right_cancel_iff, Nat.pair_eq_pair] at h
      rw [h.1, ih h.2]

/-- A collision-free number for heads of documents. -/
def encC (c : Content) : Nat := encL (c.map (fun p => Nat.pair p.1 (encL p.2)))

theorem encC_injective : Function.Injective encC := by
  intro a b h
  refine List.map_injective_iff.2 ?_ (encL_injective h)
  rintro ⟨x, l⟩ ⟨y, m⟩ h
  simp only [Nat.pair_eq_pair] at h
  rw [h.1, encL_injective h.2]

/-- A collision-free number for an optional digest. -/
def encO : Option Nat → Nat
  | none => 0
  | some n => n + 1

theorem encO_injective : Function.Injective encO := by
  intro a b h
  cases a <;> cases b <;> simp [encO] at h ⊢
  exact h

theorem idx_injective : Function.Injective Access.idx := by
  intro a b h
  cases a <;> cases b <;> simp_all [Access.idx]

/-- A collision-free digest. -/
def hashDlg (s : SDlg) : Nat :=
  2 * Nat.pair (encO s.proof) (Nat.pair (encL s.after) (Nat.pair s.sig (Nat.pair s.issuer (Nat.pair s.delegate
    (Nat.pair s.can.idx (encC s.content))))))

/-- A collision-free digest. -/
def hashRev (s : SRev) : Nat :=
  2 * Nat.pair s.revoke (Nat.pair (encO s.proof) (Nat.pair s.sig (Nat.pair s.issuer (encC s.content)))) + 1

theorem hashDlg_injective : Function.Injective hashDlg := by
  intro a b h
  cases a; cases b
  simp only [hashDlg] at h
  have h := Nat.eq_of_mul_eq_mul_left (by decide : 0 < 2) h
  simp only [Nat.pair_eq_pair] at h
  obtain ⟨h1, h2, h3, h4, h5, h6, h7⟩ := h
  simp only [SDlg.mk.injEq]
  exact ⟨h4, h3, h5, idx_injective h6, encO_injective h1, encL_injective h2, encC_injective h7⟩

theorem hashRev_injective : Function.Injective hashRev := by
  intro a b h
  cases a; cases b
  simp only [hashRev] at h
  have h := Nat.eq_of_mul_eq_mul_left (by decide : 0 < 2) (Nat.succ.inj h)
  simp only [Nat.pair_eq_pair] at h
  obtain ⟨h1, h2, h3, h4, h5⟩ := h
  simp only [SRev.mk.injEq]
  exact ⟨h4, h3, h1, encO_injective h2, encC_injective h5⟩

/-- The digest of an event. -/
def hashEvent (hc : SOp → Nat) : Event → Nat
  | .prekey op => Nat.pair 0 (Prekey.Sample.H op)
  | .cgka doc op => Nat.pair 1 (Nat.pair doc (hc op))
  | .dlg s => Nat.pair 2 (hashDlg s)
  | .rev s => Nat.pair 3 (hashRev s)

theorem hashEvent_injective {hc : SOp → Nat} (h : Function.Injective hc) : Function.Injective (hashEvent hc) := by
  intro a b he
  cases a <;> cases b <;> simp only [hashEvent, Nat.pair_eq_pair] at he <;> obtain ⟨h1, h2⟩ := he
  all_goals first
    | (exact absurd h1 (by decide))
    | skip
  · rw [Prekey.Sample.H_injective h2]
  · rw [h2.1, h h2.2]
  · rw [hashDlg_injective h2]
  · rw [hashRev_injective h2]

/-- A signature verifies when its thousands are the signer. -/
def env (hc : SOp → Nat) : Env where
  hashKey := Prekey.Sample.H
  hashCgka := fun _ => hc
  hashDlg := hashDlg
  hashRev := hashRev
  hashEvent := hashEvent hc
  validKey := Prekey.Sample.valid
  validCgka := fun _ op => decide (op.signature / 1000 = op.issuer)
  validDlg := fun s => decide (s.sig / 1000 = s.issuer)
  validRev := fun s => decide (s.sig / 1000 = s.issuer)

theorem env_noClash (hc : SOp → Nat) : (env hc).NoClash := ⟨hashDlg_injective, hashRev_injective⟩

/-- A contact card. -/
def card (i : Id) : Id × Prekey.Indie := (i, Prekey.Indie.new Prekey.Sample.H ⟨i, i, .add (10 * i + i)⟩)

/-- Device of agent 5. It knows the individuals 1 (Alice), 2 (Bob), 3 (Carol) and 7. -/
def reg : Prekey.Registry := ⟨5, 0, [card 0, card 5, card 1, card 2, card 3, card 7], []⟩

/-- The device before it has received anything. -/
def k0 : Keyhive := Keyhive.start reg [(⟨55⟩, 55)]

/-- Receiving events one after the other; those that fail are dropped. -/
def feed (E : Env) (k : Keyhive) (es : List Event) : Keyhive := es.foldl (fun k e => (k.receive E e).1) k

/-- Alice is admin of team 200. -/
def kAlice : SDlg := ⟨200, 200001, 1, .admin, none, [], []⟩
/-- Alice makes Bob admin of the team. -/
def kBob : SDlg := ⟨1, 1000, 2, .admin, some (hashDlg kAlice), [], []⟩
/-- The team is admin of group 100. -/
def gTeam : SDlg := ⟨100, 100001, 200, .admin, none, [], []⟩
/-- Bob, as a member of the team, adds Carol to group 100. -/
def gCarol : SDlg := ⟨2, 2001, 3, .edit, some (hashDlg gTeam), [], []⟩
/-- Alice takes Bob out of the team. -/
def rBob : SRev := ⟨1, 1001, hashDlg kBob, some (hashDlg kAlice), []⟩

/-- Individual 7 acts as if it were a group: it gives Alice access to itself. -/
def x7 : SDlg := ⟨7, 7001, 1, .admin, none, [], []⟩
/-- And revokes this. -/
def r7 : SRev := ⟨7, 7002, hashDlg x7, none, []⟩
/-- A contact card of individual 7. -/
def card7 : Prekey.KeyOp := ⟨7, 7, .add 78⟩

/-- Alice is admin of document 300. -/
def docAlice : SDlg := ⟨300, 300001, 1, .admin, none, [], [(300, [1])]⟩
/-- The document's key tree starts with Alice. -/
def s0 : SOp := ⟨.initAdd 1 ⟨11⟩, 1, 1500⟩
/-- Agent 66 adds itself. -/
def s1 : SOp := ⟨.add 66 ⟨66⟩ 1 [0] [0], 66, 66001⟩

/-- The digest of these operations. -/
noncomputable def hc : SOp → Nat := tableH [s0, s1]
/-- Digests and signatures in the examples. -/
noncomputable def E : Env := env hc

theorem E_noClash : E.NoClash := env_noClash hc
theorem E_events : Function.Injective E.hashEvent := hashEvent_injective (tableH_injective _)

theorem reach_feed {es : List Event} : ∀ {k : Keyhive}, Reach E k → Reach E (feed E k es) := by
  induction es with
  | nil => intro k h; exact h
  | cons e es ih => intro k h; exact ih (.call (.receive e) h trivial)

theorem reach_k0 : Reach E k0 := .start reg [(⟨55⟩, 55)]

end Verif.Keyhive.Sample
