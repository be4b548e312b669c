import Verif.Group.RevokeLemmas
import Verif.Group.FlatLemmas
import Verif.Group.WalkLemmas

/-!
# Concrete groups

Histories used to show that hypotheses of the property theorems can be met, and as counterexamples. The digest of an operation
is its signature.
-/

namespace Verif.Group.Sample

/-- Digest. -/
abbrev H : Op → Nat := Op.sig
/-- An individual. -/
def ind (i : Nat) : Agent := ⟨.individual, i⟩
/-- A group. -/
def grp (i : Nat) : Agent := ⟨.group, i⟩

/-- Receive operations in order. -/
def deliver (N : Nested) (g : Group) : List Op → Except Err Group
  | [] => .ok g
  | .dlg d :: l => do deliver N (← g.receiveDelegation H N d) l
  | .rev r :: l => do deliver N (← g.receiveRevocation H N r) l

/-- The group after a successful delivery. -/
def okG (r : Except Err Group) : Group :=
  match r with
  | .ok g => g
  | .error _ => ⟨0, [], [], [], []⟩

/-- The call succeeds. -/
def isOk {α : Type} (r : Except Err α) : Bool :=
  match r with
  | .ok _ => true
  | .error _ => false

theorem okG_eq {r : Except Err Group} (h : isOk r = true) : r = .ok (okG r) := by
  cases r with
  | ok g => rfl
  | error e => cases h

theorem deliver_run {N : Nested} : ∀ {l : List Op} {g g' : Group}, deliver N g l = .ok g' → Run H g l g'
  | [], g, g', h => by cases h; exact .nil
  | .dlg d :: l, g, g', h => by
    simp only [deliver, bind, Except.bind] at h
    cases hd : g.receiveDelegation H N d with
    | error e => simp [hd] at h
    | ok g1 =>
      simp only [hd] at h
      exact (Run.one (.dlg N hd)).append (deliver_run h)
  | .rev r :: l, g, g', h => by
    simp only [deliver, bind, Except.bind] at h
    cases hd : g.receiveRevocation H N r with
    | error e => simp [hd] at h
    | ok g1 =>
      simp only [hd] at h
      exact (Run.one (.rev N hd)).append (deliver_run h)

theorem deliver_reach {N : Nested} {l : List Op} {d : Dlg} (hd : d.proof = none)
    (h : isOk (deliver N (Group.new H d) l) = true) : Reach H (okG (deliver N (Group.new H d) l)) :=
  reach_run (.new hd) (deliver_run (okG_eq h))

/-! ## Deciding the hypotheses -/

/-- The list contains the heads and everything named by its elements. -/
def Closed (heads all : List Op) : Prop := (∀ x ∈ heads, x ∈ all) ∧ ∀ x ∈ all, ∀ b ∈ x.after, b ∈ all

instance (heads all : List Op) : Decidable (Closed heads all) := by unfold Closed; infer_instance

theorem Closed.below {heads all : List Op} (h : Closed heads all) {o : Op} (ho : Below heads o) : o ∈ all := by
  obtain ⟨x, hx, hr⟩ := ho
  induction hr with
  | refl => exact h.1 x hx
  | tail _ hd ih => exact h.2 _ ih _ hd

theorem noClash_of {f : Op → Nat} {heads : List Op} (all : List Op) (h : Closed heads all)
    (hi : ∀ a ∈ all, ∀ b ∈ all, f a = f b → a = b) : NoClash f heads :=
  fun a b ha hb => hi a (h.below ha) b (h.below hb)

/-- The delegations of a list. -/
def dlgs (l : List Op) : List Dlg := l.filterMap (fun o => match o with | .dlg d => some d | .rev _ => none)
/-- The revocations of a list. -/
def revs (l : List Op) : List Rev := l.filterMap (fun o => match o with | .dlg _ => none | .rev r => some r)

theorem mem_dlgs {l : List Op} {d : Dlg} : .dlg d ∈ l → d ∈ dlgs l := fun h =>
  List.mem_filterMap.2 ⟨.dlg d, h, rfl⟩
theorem mem_revs {l : List Op} {d : Rev} : .rev d ∈ l → d ∈ revs l := fun h =>
  List.mem_filterMap.2 ⟨.rev d, h, rfl⟩

theorem payloadUnique_of {heads : List Op} (all : List Op) (h : Closed heads all)
    (hi : ∀ a ∈ dlgs all, ∀ b ∈ dlgs all, a.samePayload b = true → a = b) : PayloadUnique heads :=
  fun a b ha hb hab => hi a (mem_dlgs (h.below ha)) b (mem_dlgs (h.below hb)) ((samePayload_iff a b).2 hab)

theorem sole_of {heads : List Op} (all : List Op) (h : Closed heads all)
    (hi : ∀ a ∈ revs all, ∀ b ∈ revs all, a.revoke.sig = b.revoke.sig → a = b) : Sole heads :=
  fun a b ha hb => hi a (mem_revs (h.below ha)) b (mem_revs (h.below hb))

theorem direct_of {heads : List Op} (all : List Op) (h : Closed heads all)
    (hi : ∀ a ∈ revs all, ∀ p ∈ a.proof.toList, p = a.revoke ∨ p ∈ a.revoke.lineage) : Direct heads := by
  intro a ha p hp
  exact hi a (mem_revs (h.below ha)) p (by simp [hp])

/-- All delegations of a member list. -/
def memberDlgs (g : Group) : List Dlg := (AMap.values g.members).flatten

theorem mem_memberDlgs {g : Group} {m : Id} {d : Dlg} (h : g.MemberBy m d) : d ∈ memberDlgs g := by
  obtain ⟨ds, h1, h2⟩ := h
  exact List.mem_flatten.2 ⟨ds, List.mem_map.2 ⟨_, AMap.mem_of_get h1, rfl⟩, h2⟩

/-! ## Operations

Group 100, created for Alice (1). -/

/-- No nested groups. -/
def noN : Nested := membersOf [] [100]
/-- Alice is admin. -/
def p0 : Dlg := .root 100 10 (ind 1) .admin .nil []
/-- The group. -/
def g0 : Group := Group.new H p0
/-- Alice gives Bob (2) edit access. -/
def d1 : Dlg := .link 1 11 (ind 2) .edit p0 .nil []
/-- Bob gives Carol (3) edit access. -/
def d2 : Dlg := .link 2 12 (ind 3) .edit d1 .nil []
/-- Alice revokes Bob with their own delegation as proof. -/
def rBobByAlice : Rev := .via 1 13 d1 p0 []
/-- Alice revokes Bob with Bob's delegation as proof. -/
def rBobSelf : Rev := .via 1 14 d1 d1 []

/-- The group with Bob and Carol. -/
def gCarol : Group := okG (deliver noN g0 [.dlg d1, .dlg d2])
/-- Then Alice revokes Bob. -/
def gBobOut : Group := okG (deliver noN g0 [.dlg d1, .dlg d2, .rev rBobSelf])

theorem gCarol_reach : Reach H gCarol := deliver_reach rfl (by decide +kernel)
theorem gBobOut_reach : Reach H gBobOut := deliver_reach rfl (by decide +kernel)

/-! ### A stranger (66) -/

/-- Signed by the stranger, in the name of Alice's delegation. -/
def x66 : Dlg := .link 66 21 (ind 66) .admin p0 .nil []
/-- The stranger's delegation to an accomplice. -/
def y66 : Dlg := .link 66 22 (ind 67) .admin x66 .nil []
/-- The stranger revokes its own delegation, with Alice's delegation as proof. -/
def r66 : Rev := .via 66 23 y66 p0 []
/-- The group after receiving that revocation. -/
def g66 : Group := okG (deliver noN g0 [.rev r66])
theorem g66_reach : Reach H g66 := deliver_reach rfl (by decide +kernel)

/-- The stranger revokes Alice, with Alice's delegation as proof. -/
def rStranger : Rev := .via 66 12 p0 p0 []

/-! ### Two revocations of the same delegation -/

/-- Group 200, created for 6. -/
def W2 : World := [(200, Group.new H (.root 200 30 (ind 6) .admin .nil []))]
/-- What group 100 sees of it. -/
def N2 : Nested := membersOf W2 [100]
/-- Bob adds group 200. -/
def k2 : Dlg := .link 2 12 (grp 200) .edit d1 .nil []
/-- Alice adds 5. -/
def f5 : Dlg := .link 1 60 (ind 5) .edit p0 .nil []
/-- Alice revokes group 200. -/
def q2 : Rev := .via 1 15 k2 p0 []
/-- 6 revokes 5, as a member of group 200. -/
def w5 : Rev := .via 6 16 f5 k2 []
/-- Alice adds 7 after one of the revocations of Bob. -/
def z7 : Dlg := .link 1 61 (ind 7) .read p0 (.cons rBobSelf .nil) []
/-- Alice adds 8 after the other. -/
def z8 : Dlg := .link 1 62 (ind 8) .read p0 (.cons rBobByAlice .nil) []
/-- 8 adds 9. -/
def z9 : Dlg := .link 8 63 (ind 9) .read z8 .nil []

/-- All of these, in one order. -/
def orderA : List Op :=
  [.dlg d1, .dlg k2, .dlg f5, .rev rBobSelf, .dlg z7, .rev rBobByAlice, .dlg z8, .dlg z9, .rev q2, .rev w5]
/-- All of these, in another order. -/
def orderB : List Op :=
  [.dlg d1, .dlg k2, .dlg f5, .rev rBobByAlice, .dlg z8, .dlg z9, .rev rBobSelf, .dlg z7, .rev q2, .rev w5]
/-- The group after the first order. -/
def gA : Group := okG (deliver N2 g0 orderA)
/-- The group after the second order. -/
def gB : Group := okG (deliver N2 g0 orderB)
theorem gA_reach : Reach H gA := deliver_reach rfl (by decide +kernel)

/-- Signs everything with 99. -/
def S99 : Op → Option Nat := fun _ => some 99

/-! ### Payloads with two signers -/

/-- Group 200 with admins 1 and 2. -/
def WK : World :=
  [(200, okG (Group.generate H (fun o => match o with | .dlg d => some (300 + d.delegate.id) | .rev _ => none) 200 [ind 1, ind 2] []))]
/-- What group 100 sees of it. -/
def NK : Nested := membersOf WK [100]
/-- Group 100 belongs to group 200. -/
def pK : Dlg := .root 100 10 (grp 200) .admin .nil []
/-- 1 adds 3. -/
def dA : Dlg := .link 1 11 (ind 3) .edit pK .nil []
/-- 2 adds 3 as well. -/
def dB : Dlg := .link 2 12 (ind 3) .edit pK .nil []
/-- 3 adds 4. -/
def c4 : Dlg := .link 3 13 (ind 4) .edit dB .nil []

/-! ### Admins -/

/-- Alice makes Bob admin. -/
def dBob : Dlg := .link 1 11 (ind 2) .admin p0 .nil []
/-- Alice adds Carol. -/
def dCar : Dlg := .link 1 12 (ind 3) .edit p0 .nil []
/-- Bob adds Carol. -/
def dCar2 : Dlg := .link 2 15 (ind 3) .edit dBob .nil []
/-- Alice, Bob (admins) and Carol. -/
def gAdm : Group := okG (deliver noN g0 [.dlg dBob, .dlg dCar])
theorem gAdm_reach : Reach H gAdm := deliver_reach rfl (by decide +kernel)
/-- Carol added by both. -/
def gAdm2 : Group := okG (deliver noN g0 [.dlg dBob, .dlg dCar2, .dlg dCar])
theorem gAdm2_reach : Reach H gAdm2 := deliver_reach rfl (by decide +kernel)
/-- Signatures for new operations. -/
def Ss : Op → Option Nat
  | .dlg d => some (1000 + d.delegate.id)
  | .rev r => some (2000 + r.revoke.sig * 10 + match r.proof with | none => 0 | some p => p.sig % 10)
/-- Alice revokes Bob. -/
def rBob : Rev := .via 1 17 dBob p0 []
/-- Bob adds themself back. -/
def back : Dlg := .link 2 18 (ind 2) .admin dBob .nil []
/-- The group without Bob. -/
def gNoBob : Group := okG (deliver noN g0 [.dlg dBob, .dlg dCar, .rev rBob])
theorem gNoBob_reach : Reach H gNoBob := deliver_reach rfl (by decide +kernel)

/-- Another root delegation of the group key. -/
def e5 : Dlg := .root 100 20 (ind 5) .admin .nil []

/-! ### Nesting -/

/-- Group 200 contains group 100. -/
def WC : World := [(200, Group.new H (.root 200 30 (grp 100) .admin .nil []))]
/-- Group 100 contains group 200. -/
def dD : Dlg := .link 1 50 (grp 200) .admin p0 .nil []
/-- The group with this member. -/
def gD : Group := okG (deliver (membersOf WC [100]) g0 [.dlg dD])
theorem gD_reach : Reach H gD := deliver_reach rfl (by decide +kernel)

/-- Group 200 contains group 300 which contains 3. -/
def W3 : World :=
  [(200, Group.new H (.root 200 30 (grp 300) .admin .nil [])), (300, Group.new H (.root 300 31 (ind 3) .admin .nil []))]
/-- Group 100 gives read access to group 200. -/
def g3 : Group := Group.new H (.root 100 10 (grp 200) .read .nil [])

/-- Groups 200 and 300 contain each other; 300 also contains 4. -/
def W4 : World :=
  [(200, Group.new H (.root 200 30 (grp 300) .admin .nil [])),
   (300, okG (deliver noN (Group.new H (.root 300 31 (ind 4) .admin .nil []))
      [.dlg (.link 4 32 (grp 200) .edit (.root 300 31 (ind 4) .admin .nil []) .nil [])]))]

theorem sound_of {W : World} {g : Group} (all : List Dlg) (hW : AMap.WF W) (hg : g.Tidy) (hW' : ∀ p ∈ W, p.2.Tidy)
    (h1 : ∀ d ∈ memberDlgs g, d ∈ all) (h2 : ∀ p ∈ W, ∀ d ∈ memberDlgs p.2, d ∈ all)
    (hs : ∀ a ∈ all, ∀ b ∈ all, a.sig = b.sig → a = b)
    (hk : ∀ a ∈ all, ∀ b ∈ all, a.delegate.id = b.delegate.id → a.delegate = b.delegate) : Sound W g := by
  have har : ∀ d, Around W g d → d ∈ all := by
    rintro d (⟨m, h⟩ | ⟨i, h, m, e1, e2⟩)
    · exact h1 d (mem_memberDlgs h)
    · exact h2 _ (AMap.mem_of_get e1) d (mem_memberDlgs e2)
  exact ⟨hW, hg, fun i h hh => hW' _ (AMap.mem_of_get hh), fun a b ha hb => hs a (har a ha) b (har b hb),
    fun a b ha hb => hk a (har a ha) b (har b hb)⟩

theorem g3_sound : Sound W3 g3 := by
  refine sound_of [.root 100 10 (grp 200) .read .nil [], .root 200 30 (grp 300) .admin .nil [], .root 300 31 (ind 3) .admin .nil []]
    (by unfold AMap.WF; decide +kernel) (Reach.new rfl).tidy ?_ (by decide +kernel) (by decide +kernel) (by decide +kernel) (by decide +kernel)
  intro p hp
  simp only [W3, List.mem_cons, List.not_mem_nil, or_false] at hp
  rcases hp with rfl | rfl
  · exact (Reach.new rfl).tidy
  · exact (Reach.new rfl).tidy

theorem g4_sound : Sound W4 g3 := by
  refine sound_of [.root 100 10 (grp 200) .read .nil [], .root 200 30 (grp 300) .admin .nil [], .root 300 31 (ind 4) .admin .nil [],
      .link 4 32 (grp 200) .edit (.root 300 31 (ind 4) .admin .nil []) .nil []]
    (by unfold AMap.WF; decide +kernel) (Reach.new rfl).tidy ?_ (by decide +kernel) (by decide +kernel) (by decide +kernel) (by decide +kernel)
  intro p hp
  simp only [W4, List.mem_cons, List.not_mem_nil, or_false] at hp
  rcases hp with rfl | rfl
  · exact (Reach.new rfl).tidy
  · exact (deliver_reach rfl (by decide +kernel)).tidy

/-! ### A cycle -/

/-- Group 200, created for 3. -/
def W5 : World := [(200, Group.new H (.root 200 30 (ind 3) .admin .nil []))]
/-- Alice makes group 200 admin. -/
def dH : Dlg := .link 1 15 (grp 200) .admin p0 .nil []
/-- 3 revokes Alice with that as proof. -/
def rC : Rev := .via 3 16 p0 dH []
/-- The group afterwards. -/
def gC : Group := okG (deliver (membersOf W5 [100]) g0 [.dlg dH, .rev rC])
theorem gC_reach : Reach H gC := deliver_reach rfl (by decide +kernel)

end Verif.Group.Sample
