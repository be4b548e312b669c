import Verif.Keyhive.Race
import Verif.Keyhive.Props

/-! # C142 — Receiving two delegations at the same time -/

namespace Verif.Keyhive.RaceProps

open Verif.Group Sample

variable {E : Env}

theorem halfway_iff {k : Keyhive} {s : SDlg} {d : Dlg} : k.halfway E s = some d ↔
    AMap.get k.dlgs (E.hashDlg s) = none ∧ E.validDlg s = true ∧ k.toDlg s = .ok d ∧ AMap.get k.groups d.subject = none ∧
      AMap.get k.docs d.subject = none ∧ k.individual d.subject = none := by
  unfold Keyhive.halfway AMap.contains
  constructor
  · intro h
    repeat' split at h
    all_goals first | (cases h; done) | skip
    rename_i h1 h2 _ d' hd h3
    cases h
    simp only [Bool.or_eq_true, not_or, Option.not_isSome_iff_eq_none, Bool.not_eq_true, Bool.not_eq_true', Bool.not_eq_false] at h1 h2 h3
    exact ⟨by simpa using h1, h2, hd, by simpa using h3.1.1, by simpa using h3.1.2, by simpa using h3.2⟩
  · rintro ⟨h1, h2, h3, h4, h5, h6⟩
    simp [h1, h2, h3, h4, h5, h6]

/-- C142: the two halves without anything in between are the call as modelled elsewhere. -/
theorem C142_halves {k : Keyhive} {s : SDlg} {d : Dlg} (h : k.halfway E s = some d) : k.receive E (.dlg s) = (k.adopt E d, .ok ()) := by
  obtain ⟨h1, h2, h3, h4, h5, h6⟩ := halfway_iff.1 h
  simp [Keyhive.receive, Keyhive.receiveDelegation, Keyhive.applyDlg, AMap.contains, h1, h2, h3, h4, h5, h6]

theorem findRevs_congr {k k' : Keyhive} (h : k'.revs = k.revs) : ∀ l, k'.findRevs l = k.findRevs l := by
  intro l
  induction l with
  | nil => rfl
  | cons x l ih => simp only [Keyhive.findRevs, h, ih]

theorem toDlg_root {k : Keyhive} {s : SDlg} {d : Dlg} (hp : s.proof = none) (h : k.toDlg s = .ok d) :
    d.issuer = s.issuer ∧ d.subject = s.issuer ∧ (k.getAgent s.delegate).isSome = true := by
  unfold Keyhive.toDlg at h
  rw [hp] at h
  simp only [Keyhive.findProof] at h
  repeat' split at h
  all_goals first | (cases h; done) | skip
  rename_i ha _ _ _
  cases h
  exact ⟨rfl, rfl, by rw [ha]; rfl⟩

theorem adopt_me (k : Keyhive) (d : Dlg) : (k.adopt E d).reg.me = k.reg.me := by
  unfold Keyhive.adopt
  simp only
  split <;> rfl

theorem adopt_other {k : Keyhive} {d : Dlg} {i : Id} (hi : d.issuer ≠ i) :
    AMap.get (k.adopt E d).groups i = AMap.get k.groups i ∧ AMap.get (k.adopt E d).docs i = AMap.get k.docs i ∧
      (k.adopt E d).individual i = k.individual i ∧ (k.adopt E d).getAgent i = k.getAgent i ∧ (k.adopt E d).revs = k.revs := by
  have hg : (Group.new E.opDigest d).id = d.issuer := rfl
  have hg' : ((Group.new E.opDigest d).rebuild E.opDigest).id = d.issuer := rfl
  have h1 : AMap.get (k.adopt E d).groups i = AMap.get k.groups i := by
    unfold Keyhive.adopt
    simp only
    split
    · rfl
    · simp only [Keyhive.insertGroup, Keyhive.storeDlg]
      rw [AMap.get_insert, if_neg (by rw [hg]; exact fun h => hi h.symm)]
  have h2 : AMap.get (k.adopt E d).docs i = AMap.get k.docs i := by
    unfold Keyhive.adopt
    simp only
    split
    · simp only [Keyhive.insertDoc, Keyhive.storeDlg]
      rw [AMap.get_insert, if_neg (by rw [hg']; exact fun h => hi h.symm)]
    · rfl
  have h3 : (k.adopt E d).individual i = k.individual i := by
    unfold Keyhive.adopt
    simp only
    split <;> rfl
  have h5 := adopt_me (E := E) k d
  refine ⟨h1, h2, h3, ?_, ?_⟩
  · unfold Keyhive.getAgent AMap.contains
    rw [h1, h2, h3, h5]
  · unfold Keyhive.adopt
    simp only
    split <;> rfl

theorem adopt_dlgs {k : Keyhive} {d : Dlg} {x : Nat} (hx : E.dlgDigest d ≠ x) : AMap.get (k.adopt E d).dlgs x = AMap.get k.dlgs x := by
  have : (k.adopt E d).dlgs = AMap.insert k.dlgs (E.dlgDigest d) d := by
    unfold Keyhive.adopt
    simp only
    split <;> rfl
  rw [this, AMap.get_insert, if_neg (fun h => hx h.symm)]

/-- C142 for delegations of two groups: two calls that each receive the first delegation of a group not known yet end, when their halves are interleaved,
in the state in which one was received after the other.
Missing: two delegations of the same group (`C142_fails`). -/
theorem C142_two_groups_partial (hE : E.NoClash) {k : Keyhive} (hk : Reach E k) {s1 s2 : SDlg} {d1 d2 : Dlg} (h1 : k.halfway E s1 = some d1)
    (h2 : k.halfway E s2 = some d2) (hp1 : s1.proof = none) (hp2 : s2.proof = none) (hne : s1.issuer ≠ s2.issuer) :
    k.receive E (.dlg s1) = (k.adopt E d1, .ok ()) ∧ (k.adopt E d1).receive E (.dlg s2) = ((k.adopt E d1).adopt E d2, .ok ()) := by
  refine ⟨C142_halves h1, C142_halves (halfway_iff.2 ?_)⟩
  obtain ⟨_, _, a3, a4, a5, a6⟩ := halfway_iff.1 h1
  obtain ⟨b1, b2, b3, b4, b5, b6⟩ := halfway_iff.1 h2
  obtain ⟨c1, c2, _⟩ := toDlg_root hp1 a3
  obtain ⟨e1, e2, e3⟩ := toDlg_root hp2 b3
  have hdig : E.dlgDigest d1 = E.hashDlg s1 := by
    rw [dlgDigest_eq]
    exact congrArg _ (toDlg_static (reach_storeOk hk) a3)
  have hd : E.dlgDigest d1 ≠ E.hashDlg s2 := by
    rw [hdig]
    intro h
    exact hne (congrArg SDlg.issuer (hE.1 h))
  have hsub : d1.issuer ≠ d2.subject := by rw [c1, e2]; exact hne
  have hag : (k.adopt E d1).getAgent s2.delegate = k.getAgent s2.delegate := by
    by_cases h : d1.issuer = s2.delegate
    · rw [← h] at e3 ⊢
      rw [c2, ← c1] at a4 a5 a6
      have hme : d1.issuer = k.reg.me := by
        by_contra hn
        simp [Keyhive.getAgent, AMap.contains, hn, a4, a5, a6] at e3
      unfold Keyhive.getAgent
      rw [if_pos hme, if_pos (by rw [adopt_me]; exact hme)]
    · exact (adopt_other h).2.2.2.1
  obtain ⟨o1, o2, o3, o4, o5⟩ := adopt_other (E := E) (k := k) hsub
  refine ⟨by rw [adopt_dlgs hd]; exact b1, b2, ?_, o1.trans b4, o2.trans b5, o3.trans b6⟩
  rw [← b3]
  unfold Keyhive.toDlg
  rw [hp2]
  simp only [Keyhive.findProof, hag, findRevs_congr o5]

/-- Alice is admin of group 100. -/
def toAlice : SDlg := ⟨100, 100011, 1, .admin, none, [], []⟩
/-- Bob too. -/
def toBob : SDlg := ⟨100, 100012, 2, .admin, none, [], []⟩
/-- The two delegations as the device puts them together. -/
def dAlice : Dlg := .root 100 100011 ⟨.individual, 1⟩ .admin .nil []
/-- The two delegations as the device puts them together. -/
def dBob : Dlg := .root 100 100012 ⟨.individual, 2⟩ .admin .nil []

/-- Two delegations of different groups meet the hypotheses. -/
example : k0.halfway Sample.E toAlice = some dAlice ∧ k0.halfway Sample.E kAlice = some (.root 200 200001 ⟨.individual, 1⟩ .admin .nil []) ∧
    toAlice.issuer ≠ kAlice.issuer := by decide +kernel

/-- C142 fails: a device receives, in two calls at the same time, the two delegations that a group was made with. Both calls succeed, but the group knows only
the one that came last: Alice is not a member. Receiving the delegation again does not help: the device takes it for known. If one is received after the
other, both are members. -/
theorem C142_fails : ∃ (E : Env) (k : Keyhive) (s1 s2 : SDlg) (d1 d2 : Dlg), Reach E k ∧ E.NoClash ∧ k.halfway E s1 = some d1 ∧ k.halfway E s2 = some d2 ∧
    (∃ g, AMap.get ((k.adopt E d1).adopt E d2).groups 100 = some g ∧ AMap.get g.members s1.delegate = none ∧ AMap.get g.members s2.delegate ≠ none) ∧
    ((k.adopt E d1).adopt E d2).receive E (.dlg s1) = ((k.adopt E d1).adopt E d2, .ok ()) ∧
    ∃ g, AMap.get (feed E k [.dlg s1, .dlg s2]).groups 100 = some g ∧ AMap.get g.members s1.delegate ≠ none ∧ AMap.get g.members s2.delegate ≠ none := by
  have key : ∀ {o : Option Group} {P : Group → Prop} [DecidablePred P], (match o with | some g => decide (P g) | none => false) = true → ∃ g, o = some g ∧ P g := by
    intro o P _ h
    cases o with
    | none => cases h
    | some g => exact ⟨g, rfl, of_decide_eq_true h⟩
  exact ⟨Sample.E, k0, toAlice, toBob, dAlice, dBob, reach_k0, E_noClash, by decide +kernel, by decide +kernel, key (by decide +kernel), by decide +kernel,
    key (by decide +kernel)⟩

end Verif.Keyhive.RaceProps
