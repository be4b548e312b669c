import Verif.Keyhive.Debug
import Verif.Group.Props

/-!
# C109: the table of events for debugging
-/

namespace Verif.Keyhive.DebugProps

open Verif.Group Verif.Group.Props Verif.Group.Sample Verif.Cgka Verif.BeeKem

/-! ## Specification -/

/-- Who signed an event. -/
def signer : LiveEvent → Id
  | .expanded i _ _ => i
  | .rotated i _ _ _ => i
  | .cgka _ o => o.issuer
  | .dlg d => d.issuer
  | .rev r => r.issuer

/-- The digest of what was signed. -/
def digest (D : Digests) : LiveEvent → Nat
  | .cgka _ o => D.cgka o
  | .dlg d => D.op (.dlg d)
  | .rev r => D.op (.rev r)
  | e => D.prekey e

/-- The bytes behind a tag. -/
def bytes : Tag → List UInt8
  | .hash b => b
  | .nickname b _ => b

/-- How a key or digest is to be shown: by its nickname if it has one, and in short hex if not. -/
def shown (names : Nicknames) (b : List UInt8) : List Char := (AMap.get names b).getD (Hex.shortHex b)

/-- The tag stands for these bytes, and is shown as it should be. -/
def Stands (names : Nicknames) (t : Tag) (b : List UInt8) : Prop := bytes t = b ∧ t.shortHex = shown names b

/-- The details tell what the event says. The subject of revocations is left out here: see `C109_subject_partial`. -/
def Tells (W : Wire) (D : Digests) (names : Nicknames) : LiveEvent → Details → Prop
  | .expanded _ _ k, .expanded t => Stands names t (W.share k)
  | .rotated _ _ a b, .rotated s t => Stands names s (W.share a) ∧ Stands names t (W.share b)
  | .cgka doc ⟨.add who pk leaf _ _, _, _⟩, .cgka t (.add i p l _) =>
    Stands names t (W.key doc) ∧ Stands names i (W.key who) ∧ Stands names p (W.share pk.of) ∧ l = leaf
  | .cgka doc ⟨.remove who leaf gone _, _, _⟩, .cgka t (.remove i l ts _) =>
    Stands names t (W.key doc) ∧ Stands names i (W.key who) ∧ l = leaf ∧ List.Forall₂ (fun p t => Stands names t (W.share p.of)) gone ts
  | .cgka doc ⟨.update who path _, _, _⟩, .cgka t (.update i ts n _) =>
    Stands names t (W.key doc) ∧ Stands names i (W.key who) ∧ n = path.path.length ∧
      List.Forall₂ (fun p t => Stands names t (W.share p.of)) path.leafPk.keys ts
  | .dlg d, .delegated s can t n m =>
    Stands names s (W.key d.subject) ∧ can = d.can ∧ Stands names t (W.key d.delegate.id) ∧ n = d.after.length ∧ m = d.content.length
  | .rev r, .revoked _ t p m =>
    Stands names t (W.digest (D.op (.dlg r.revoke))) ∧ (p = true ↔ ∃ q, r.proof = some q) ∧ m = r.content.length
  | _, _ => False

/-- What a row says of the group a revocation is about. -/
def subjectOf : Details → Option (List UInt8)
  | .delegated s .. => some (bytes s)
  | .revoked s .. => some (bytes s)
  | _ => none

/-! ## Lemmas -/

theorem stands_new (names : Nicknames) (b : List UInt8) : Stands names (.new names b) b := by
  unfold Stands Tag.new shown
  cases AMap.get names b <;> exact ⟨rfl, rfl⟩

theorem forall_new (names : Nicknames) (f : Pk → List UInt8) : ∀ l : List Pk, List.Forall₂ (fun p t => Stands names t (f p)) l
    (l.map (fun p => Tag.new names (f p)))
  | [] => .nil
  | _ :: l => .cons (stands_new _ _) (forall_new names f l)

theorem rowsFrom_get (W : Wire) (D : Digests) (names : Nicknames) : ∀ (events : List LiveEvent) (i j : Nat),
    (rowsFrom W D names i events)[j]? = (events[j]?).map (Row.fromEvent W D names (i + j))
  | [], _, _ => by simp [rowsFrom]
  | e :: es, i, 0 => by simp [rowsFrom]
  | e :: es, i, j + 1 => by
    simp only [rowsFrom, List.getElem?_cons_succ, rowsFrom_get W D names es (i + 1) j]
    rw [show i + 1 + j = i + (j + 1) by omega]

theorem rows_get (W : Wire) (D : Digests) (names : Nicknames) (events : List LiveEvent) (j : Nat) :
    (EventTable.fromEvents W D events names).rows[j]? = (events[j]?).map (Row.fromEvent W D names j) := by
  unfold EventTable.fromEvents
  split
  · rename_i h
    rw [List.isEmpty_iff.1 h]; rfl
  · simpa using rowsFrom_get W D names events 0 j

theorem counts_get (t : EventType) : ∀ (events : List LiveEvent) (m : AMap EventType Nat),
    ((AMap.get (events.foldl (fun m e => AMap.insert m e.type ((AMap.get m e.type).getD 0 + 1)) m) t).getD 0 =
      (AMap.get m t).getD 0 + events.countP (fun e => e.type = t)) ∧
    (AMap.get (events.foldl (fun m e => AMap.insert m e.type ((AMap.get m e.type).getD 0 + 1)) m) t = none ↔
      AMap.get m t = none ∧ ∀ e ∈ events, e.type ≠ t)
  | [], m => by simp
  | e :: es, m => by
    have ih := counts_get t es (AMap.insert m e.type ((AMap.get m e.type).getD 0 + 1))
    rw [AMap.get_insert] at ih
    simp only [List.foldl_cons, List.countP_cons, List.forall_mem_cons]
    by_cases h : t = e.type
    · subst h
      simp only [if_true, Option.getD_some] at ih
      refine ⟨by rw [ih.1]; simp; omega, by rw [ih.2]; simp⟩
    · rw [if_neg h] at ih
      have h' : e.type ≠ t := fun x => h x.symm
      refine ⟨by rw [ih.1]; simp [h'], by rw [ih.2]; simp [h']⟩

/-! ## Theorems -/

/-- C109: the table has a row for each event, in the order of the events; it tells its place, its kind, who signed it, its digest
and what it says. -/
theorem C109_rows (W : Wire) (D : Digests) (names : Nicknames) (events : List LiveEvent) :
    (EventTable.fromEvents W D events names).rows.length = events.length ∧
    ∀ (i : Nat) (e : LiveEvent), events[i]? = some e → ∃ r : Row, (EventTable.fromEvents W D events names).rows[i]? = some r ∧ r.index = i ∧ r.type = e.type ∧
      Stands names r.issuer (W.key (signer e)) ∧ Stands names r.eventHash (W.digest (digest D e)) ∧ Tells W D names e r.details := by
  constructor
  · apply Nat.le_antisymm
    · by_contra h
      have h := List.getElem?_eq_getElem (Nat.lt_of_not_le h)
      rw [rows_get, List.getElem?_eq_none (Nat.le_refl _)] at h
      cases h
    · by_contra h
      have h' := rows_get W D names events (EventTable.fromEvents W D events names).rows.length
      rw [List.getElem?_eq_none (Nat.le_refl _), List.getElem?_eq_getElem (Nat.lt_of_not_le h)] at h'
      cases h'
  · intro i e he
    refine ⟨Row.fromEvent W D names i e, by rw [rows_get, he]; rfl, ?_⟩
    rcases e with ⟨a, b, c⟩ | ⟨a, b, c, d⟩ | ⟨doc, ⟨(⟨w, pk, l, p, q⟩ | ⟨w, l, g, p⟩ | ⟨w, path, p⟩), y, z⟩⟩ | d | r
    · exact ⟨rfl, rfl, stands_new _ _, stands_new _ _, stands_new _ _⟩
    · exact ⟨rfl, rfl, stands_new _ _, stands_new _ _, stands_new _ _, stands_new _ _⟩
    · exact ⟨rfl, rfl, stands_new _ _, stands_new _ _, stands_new _ _, stands_new _ _, stands_new _ _, rfl⟩
    · exact ⟨rfl, rfl, stands_new _ _, stands_new _ _, stands_new _ _, stands_new _ _, rfl, forall_new names (fun p => W.share p.of) _⟩
    · exact ⟨rfl, rfl, stands_new _ _, stands_new _ _, stands_new _ _, stands_new _ _, rfl, forall_new names (fun p => W.share p.of) _⟩
    · refine ⟨rfl, rfl, stands_new _ _, stands_new _ _, ?_, rfl, stands_new _ _, rfl, rfl⟩
      cases d <;> exact stands_new _ _
    · refine ⟨rfl, rfl, stands_new _ _, stands_new _ _, stands_new _ _, ?_, rfl⟩
      show r.proof.isSome = true ↔ _
      cases r.proof <;> simp

/-- C109: for each kind the table counts the events of this kind; kinds that do not occur have no entry. -/
theorem C109_counts (W : Wire) (D : Digests) (names : Nicknames) (events : List LiveEvent) (t : EventType) (n : Nat) :
    AMap.get (EventTable.fromEvents W D events names).counts t = some n ↔ n = events.countP (fun e => e.type = t) ∧ ∃ e ∈ events, e.type = t := by
  have hc : (EventTable.fromEvents W D events names).counts = countTypes events := by
    unfold EventTable.fromEvents
    split
    · rename_i h
      rw [List.isEmpty_iff.1 h]; rfl
    · rfl
  rw [hc]
  have h := counts_get t events []
  unfold countTypes
  generalize hx : AMap.get (List.foldl _ _ events) t = x at h ⊢
  cases x with
  | none =>
    simp only [true_iff, AMap.get_nil, true_and] at h
    constructor
    · intro h; cases h
    · rintro ⟨_, e, he, ht⟩
      exact absurd ht (h.2 e he)
  | some m =>
    simp only [Option.getD_some, AMap.get_nil, Option.getD_none, Nat.zero_add, true_and, reduceCtorEq, false_iff] at h
    rw [Option.some.injEq, h.1]
    constructor
    · rintro rfl
      refine ⟨rfl, ?_⟩
      by_contra hn
      exact h.2 (fun e he ht => hn ⟨e, he, ht⟩)
    · rintro ⟨h1, _⟩; exact h1.symm

/-- C109: the nickname given last is the one shown, and giving one changes nothing else. -/
theorem C109_nicknames (names : Nicknames) (b c : List UInt8) (n : List Char) :
    shown (withNickname names b n) c = if c = b then n else shown names c := by
  unfold shown withNickname
  rw [AMap.get_insert]
  split <;> rfl

/-- C109: the row of a revocation that a group accepted tells this group, if the revocation has no proof or one about this group.
Missing: revocations accepted with a proof about another group (`C109_fails`). -/
theorem C109_subject_partial {H : Op → Nat} {N : Nested} {g g' : Group} {r : Rev} (W : Wire) (D : Digests) (names : Nicknames) (i : Nat)
    (h : g.receiveRevocation H N r = .ok g') (hp : ∀ p, r.proof = some p → p.subject = g.id) :
    subjectOf (Row.fromEvent W D names i (.rev r)).details = some (W.key g.id) := by
  obtain ⟨hs, hg⟩ := receiveRevocation_iff.1 ⟨g', h⟩
  unfold Row.fromEvent
  dsimp only [subjectOf]
  cases hr : r.proof with
  | some p => dsimp only; rw [(stands_new _ _).1, hp p hr]
  | none =>
    dsimp only
    rw [(stands_new _ _).1]
    rcases hg with ⟨_, h1⟩ | ⟨p, h1, _⟩
    · rw [h1]
    · rw [hr] at h1; cases h1

/-! ## Sample -/

def W : Wire := ⟨fun n => [1, UInt8.ofNat n], fun n => [2, UInt8.ofNat n], fun n => [3, UInt8.ofNat n]⟩
def D : Digests := ⟨fun _ => 7, fun o => o.signature, Group.Sample.H⟩
def names : Nicknames := withNickname (withNickname [] [1, 100] "club".toList) [1, 100] "team".toList

def events : List LiveEvent := [.dlg Group.Sample.p0, .expanded 5 50 55, .cgka 100 ⟨.add 1 ⟨11⟩ 0 [] [], 100, 6⟩, .dlg Group.Sample.d1]

-- Four events, two of which are delegations; the team has a nickname, Alice has none.
example : (EventTable.fromEvents W D events names).rows.map (fun r => (r.index, r.issuer.shortHex)) =
    [(0, "team".toList), (1, "0105".toList), (2, "team".toList), (3, "0101".toList)] := by decide +kernel
example : AMap.get (EventTable.fromEvents W D events names).counts .delegated = some 2 ∧
    AMap.get (EventTable.fromEvents W D events names).counts .revoked = none := by decide +kernel
example : ∃ g', (okG (deliver noN g0 [.dlg d1])).receiveRevocation Group.Sample.H noN rBobByAlice = .ok g' ∧
    ∀ p, rBobByAlice.proof = some p → p.subject = (okG (deliver noN g0 [.dlg d1])).id :=
  ⟨okG (deliver noN g0 [.dlg d1, .rev rBobByAlice]), by decide +kernel, fun p h => by cases h; decide +kernel⟩

/-- C109 fails: a group accepts a revocation, and its row tells of another group. -/
theorem C109_fails : ∃ (H : Op → Nat) (N : Nested) (g g' : Group) (r : Rev), Reach H g ∧ g.receiveRevocation H N r = .ok g' ∧
    ∀ (W : Wire) (D : Digests) (names : Nicknames) (i : Nat), W.key.Injective →
      subjectOf (Row.fromEvent W D names i (.rev r)).details ≠ some (W.key g.id) := by
  refine ⟨Group.Sample.H, membersOf [(900, ownTeam)] [], okG (deliver noN g0 [.dlg d1]),
    okG (deliver (membersOf [(900, ownTeam)] []) (okG (deliver noN g0 [.dlg d1])) [.rev rForeign]), rForeign,
    deliver_reach rfl (by decide +kernel), by decide +kernel, ?_⟩
  intro W D names i hW h
  have h1 : subjectOf (Row.fromEvent W D names i (.rev rForeign)).details = some (W.key 901) := congrArg some (stands_new _ _).1
  rw [h1] at h
  have h2 := hW (Option.some.inj h)
  have h3 : (okG (deliver noN g0 [.dlg d1])).id = 100 := by decide +kernel
  rw [h3] at h2
  exact absurd h2 (by decide)

end Verif.Keyhive.DebugProps
