import Verif.Cipher.FailingLemmas
import Mathlib.Data.Nat.Pairing

/-! # Properties of the ciphertext store and of causal decryption -/

namespace Verif.Cipher.Props

namespace Sample

/-- A collision-free digest. -/
def H (c : Ct) : Nat := Nat.pair c.ref (Nat.pair c.op (Nat.pair c.size c.body))

theorem H_injective : Function.Injective H := by
  intro a b h
  cases a; cases b
  simp only [H, Nat.pair_eq_pair] at h
  obtain ⟨h1, h2, h3, h4⟩ := h
  subst h1; subst h2; subst h3; subst h4
  rfl

end Sample

open Sample (H H_injective)

/-! ## C45 — the store returns what was put in -/

/-- C45 fails in three ways. (1) After removing one of two ciphertexts for the same content under the same update, the other is
not found by update. (2) After removing both, a third ciphertext for that content is not found by reference, for good; and the
second removal reports that there was nothing to remove. (3) Looking up one update also returns ciphertexts of other updates. -/
theorem C45_fails :
    (∃ cmds o c, c ∈ live H cmds ∧ c.op = o ∧ c ∉ (runAll H cmds).getByUpdate o) ∧
    (∃ cmds c, c ∈ live H cmds ∧ (runAll H cmds).getByRef c.ref = none) ∧
    (∃ cmds d c, c ∈ live H cmds ∧ H c = d ∧ ((runAll H cmds).remove d).2 = none) ∧
    (∃ cmds o c, (∀ d, Cmd.remove d ∉ cmds) ∧ c ∈ (runAll H cmds).getByUpdate o ∧ c.op ≠ o) := by
  refine ⟨⟨[.insert ⟨1, 10, 5, 0⟩, .insert ⟨1, 10, 6, 1⟩, .remove (H ⟨1, 10, 6, 1⟩)], 10, ⟨1, 10, 5, 0⟩, ?_, ?_, ?_⟩,
    ⟨[.insert ⟨1, 10, 5, 0⟩, .insert ⟨1, 10, 6, 1⟩, .insert ⟨1, 11, 7, 2⟩, .remove (H ⟨1, 10, 6, 1⟩), .remove (H ⟨1, 10, 5, 0⟩)],
      ⟨1, 11, 7, 2⟩, ?_, ?_⟩,
    ⟨[.insert ⟨1, 10, 5, 0⟩, .insert ⟨1, 10, 6, 1⟩, .remove (H ⟨1, 10, 6, 1⟩)], H ⟨1, 10, 5, 0⟩, ⟨1, 10, 5, 0⟩, ?_, ?_, ?_⟩,
    ⟨[.insert ⟨1, 10, 5, 0⟩, .insert ⟨1, 11, 6, 1⟩], 10, ⟨1, 11, 6, 1⟩, ?_, ?_, ?_⟩⟩
  all_goals first | decide +kernel | simp

/-- C45, the part that holds: as long as no single ciphertext is removed, or no two ciphertexts are for the same content under the
same update, a lookup by reference finds something exactly when a ciphertext for it was inserted and not removed; it then is one
of these, and the longest. -/
theorem C45_by_reference_partial {H : Ct → Nat} (hH : Function.Injective H) (cmds : List Cmd) (hu : RemovalsUnambiguous cmds)
    (r : Ref) :
    ((runAll H cmds).getByRef r = none ↔ ∀ c ∈ live H cmds, c.ref ≠ r) ∧
    ∀ c, (runAll H cmds).getByRef r = some c →
      c ∈ live H cmds ∧ c.ref = r ∧ ∀ c' ∈ live H cmds, c'.ref = r → c'.size ≤ c.size := by
  obtain ⟨ins, _, h⟩ := inv_of_cmds hH cmds hu
  exact h.getByRef r

/-- C45, the part that holds: under the same condition a lookup by update finds every ciphertext of that update that was inserted
and not removed, and only ciphertexts that were inserted and not removed; and only ones of that update if no content is encrypted
under two updates. -/
theorem C45_by_update_partial {H : Ct → Nat} (hH : Function.Injective H) (cmds : List Cmd) (hu : RemovalsUnambiguous cmds)
    (o : OpHash) (c : Ct) :
    (c ∈ live H cmds → c.op = o → c ∈ (runAll H cmds).getByUpdate o) ∧
    (c ∈ (runAll H cmds).getByUpdate o → c ∈ live H cmds) ∧
    ((∀ a ∈ inserted cmds, ∀ b ∈ inserted cmds, a.ref = b.ref → a.op = b.op) →
      c ∈ (runAll H cmds).getByUpdate o → c.op = o) := by
  obtain ⟨ins, hins, h⟩ := inv_of_cmds hH cmds hu
  obtain ⟨h1, h2⟩ := h.getByUpdate o c
  refine ⟨h1, fun hc => (h2 hc).1, fun hone hc => ?_⟩
  obtain ⟨h3, c', h4, h5, h6⟩ := h2 hc
  rw [← h5]
  exact (hone c' ((hins _).1 h4) c ((hins _).1 (h.liveIns c h3)) h6).symm

/-- C45: under the same condition, removing a ciphertext hands it out exactly when it was there. -/
theorem C45_remove_partial {H : Ct → Nat} (hH : Function.Injective H) (cmds : List Cmd)
    (hu : ∀ c ∈ inserted cmds, ∀ c' ∈ inserted cmds, c.ref = c'.ref → c.op = c'.op → c = c') (d : Nat) (c : Ct) :
    ((runAll H cmds).remove d).2 = some c ↔ c ∈ live H cmds ∧ H c = d := by
  obtain ⟨ins, hins, h⟩ := inv_of_cmds hH cmds (.inr hu)
  obtain ⟨_, h1, h2⟩ := h.remove hH d (fun a ha b hb => hu a ((hins _).1 (h.liveIns a ha)) b ((hins _).1 (h.liveIns b hb)))
  refine ⟨h2 c, fun ⟨h3, h4⟩ => ?_⟩
  cases hr : ((runAll H cmds).remove d).2 with
  | none => exact absurd h4 (h1 hr c h3)
  | some c' =>
    obtain ⟨_, h5⟩ := h2 c' hr
    rw [hH (h5.trans h4.symm)]

/-- C45: under the same condition, removing what there is for a reference reports whether there was anything. -/
theorem C45_remove_all_partial {H : Ct → Nat} (hH : Function.Injective H) (cmds : List Cmd) (hu : RemovalsUnambiguous cmds) (r : Ref) :
    ((runAll H cmds).removeAll r).2 = true ↔ ∃ c ∈ live H cmds, c.ref = r := by
  obtain ⟨ins, _, h⟩ := inv_of_cmds hH cmds hu
  unfold Store.removeAll
  split
  · rename_i hr
    exact ⟨fun h => absurd h (by simp), fun ⟨c, hc, he⟩ => absurd he (h.refsNone r hr c hc)⟩
  · rename_i ds hr
    refine ⟨fun _ => ?_, fun _ => rfl⟩
    obtain ⟨d, hd⟩ := List.exists_mem_of_ne_nil _ (filled_cmds H cmds r ds hr)
    obtain ⟨c, hc, he, -⟩ := (h.refs r ds hr d).1 hd
    exact ⟨c, hc, he⟩

example : ((runAll H [.insert ⟨1, 10, 5, 0⟩, .insert ⟨1, 11, 6, 1⟩, .insert ⟨2, 11, 6, 1⟩, .removeAll 1]).removeAll 1).2 = false ∧
    ((runAll H [.insert ⟨1, 10, 5, 0⟩, .insert ⟨1, 11, 6, 1⟩, .insert ⟨2, 11, 6, 1⟩, .removeAll 1]).removeAll 2).2 = true := by decide +kernel

example : RemovalsUnambiguous [.insert ⟨1, 10, 5, 0⟩, .insert ⟨1, 11, 6, 1⟩, .insert ⟨2, 11, 6, 1⟩, .remove (H ⟨1, 11, 6, 1⟩)] ∧
    (runAll H [.insert ⟨1, 10, 5, 0⟩, .insert ⟨1, 11, 6, 1⟩, .insert ⟨2, 11, 6, 1⟩, .remove (H ⟨1, 11, 6, 1⟩)]).getByRef 1 =
      some ⟨1, 10, 5, 0⟩ ∧
    (runAll H [.insert ⟨1, 10, 5, 0⟩, .insert ⟨1, 11, 6, 1⟩, .insert ⟨2, 11, 6, 1⟩, .remove (H ⟨1, 11, 6, 1⟩)]).getByUpdate 11 =
      [⟨2, 11, 6, 1⟩] := by
  refine ⟨.inr ?_, by decide +kernel, by decide +kernel⟩
  decide +kernel

/-! ## C46 — causal decryption -/

/-- C46, for a store that does not fail: causal decryption ends. Its outcome, however many turns it is given beyond that, is: every
reported plaintext belongs to something that can be reached, with the key that opens it; nothing is reported twice; everything
reported as impossible is something reached that cannot be opened; everything reported as missing is a missing ancestor. -/
theorem C46_terminates_sound {get : Ref → Got} {opened : Ct → Key → Opened} (hr : Reliable get) (start : List (Ct × Key)) :
    ∃ n p, (∀ m, n ≤ m → loop get opened m Progress.new start = some p) ∧
      (∀ r t, (r, t) ∈ p.complete → ∃ c k e, Reach get opened start c k ∧ c.ref = r ∧ opened c k = .envelope e ∧
        e.plaintext = t ∧ AMap.get p.keys r = some k) ∧
      (p.complete.map Prod.fst).Nodup ∧
      (∀ r, AMap.contains p.cannot r = true →
        ∃ c k, Reach get opened start c k ∧ c.ref = r ∧ ∀ e, opened c k ≠ .envelope e) ∧
      (∀ r k', AMap.get p.next r = some k' → get r = .absent ∧
        ∃ c k e, Reach get opened start c k ∧ opened c k = .envelope e ∧ (r, k') ∈ e.ancestors) := by
  obtain ⟨n, p, h1, h2⟩ := loop_result (opened := opened) hr start
  refine ⟨n, p, fun m hm => loop_mono n h1 m hm, fun r t h => ?_, h2.once, h2.cannot, h2.next⟩
  obtain ⟨c, k, e, g1, g2, g3, g4, g5, _⟩ := h2.done r t h
  exact ⟨c, k, e, g1, g2, g3, g4, g5⟩

/-- C46, for a store that does not fail: if what can be reached for one reference opens to one envelope only, the plaintext of
everything that can be reached and opened is reported; everything that cannot be opened is reported as such, unless it was opened
with another key; and every missing ancestor is reported. -/
theorem C46_complete {get : Ref → Got} {opened : Ct → Key → Opened} (hr : Reliable get) (start : List (Ct × Key))
    (hone : OneEnvelope get opened start) (n : Nat) (p : Progress) (hp : loop get opened n Progress.new start = some p) {c : Ct}
    {k : Key} (hc : Reach get opened start c k) :
    (∀ e, opened c k = .envelope e → (c.ref, e.plaintext) ∈ p.complete ∧
      ∀ r k', (r, k') ∈ e.ancestors → get r = .absent → AMap.contains p.next r = true) ∧
    ((∀ e, opened c k ≠ .envelope e) → AMap.contains p.cannot c.ref = true ∨ ∃ t, (c.ref, t) ∈ p.complete) := by
  obtain ⟨n', p', h1, h2⟩ := loop_result (opened := opened) hr start
  have := loop_det h1 hp
  subst this
  refine ⟨fun e he => ?_, fun hno => ?_⟩
  · rcases h2.settled hone hc with h3 | h3
    · obtain ⟨t, ht⟩ := (h2.seen _).1 h3
      obtain ⟨c0, k0, e0, g1, g2, g3, g4, _, g6⟩ := h2.done _ _ ht
      have := hone _ _ _ _ _ _ g1 hc g2 g3 he
      subst this
      refine ⟨by rw [g4]; exact ht, fun r k' ha hab => (g6 r k' ha).1 hab⟩
    · exact absurd he (h3.2 e)
  · rcases h2.settled hone hc with h3 | h3
    · exact .inr ((h2.seen _).1 h3)
    · exact .inl h3.1

/-- C46, for any store, also one whose lookups fail: whenever causal decryption ends, every reported plaintext belongs to something
that can be reached; everything reported as impossible was reached, with the reason that is given; everything reported as missing is
a missing ancestor. If what can be reached for one reference opens to one envelope only, everything that can be reached and opened
is reported; it is also reported as impossible if an ancestor could not be looked up; missing ancestors are reported, and so is what
cannot be opened. Missing: that it ends (`C46_fails`). -/
theorem C46_any_store_partial {get : Ref → Got} {opened : Ct → Key → Opened} (start : List (Ct × Key)) (n : Nat) (p : Progress)
    (hp : loop get opened n Progress.new start = some p) :
    (∀ r t, (r, t) ∈ p.complete → ∃ c k e, Reach get opened start c k ∧ c.ref = r ∧ opened c k = .envelope e ∧ e.plaintext = t) ∧
    (∀ r why, AMap.get p.cannot r = some why → ∃ c k, Reach get opened start c k ∧ c.ref = r ∧ Explains get opened c k why) ∧
    (∀ r k', AMap.get p.next r = some k' → get r = .absent ∧
      ∃ c k e, Reach get opened start c k ∧ opened c k = .envelope e ∧ (r, k') ∈ e.ancestors) ∧
    (OneEnvelope get opened start → ∀ c k, Reach get opened start c k →
      (∀ e, opened c k = .envelope e → (c.ref, e.plaintext) ∈ p.complete ∧ ∀ r k', (r, k') ∈ e.ancestors →
        (get r = .absent → AMap.contains p.next r = true) ∧ (get r = .error → AMap.contains p.cannot c.ref = true)) ∧
      ((∀ e, opened c k ≠ .envelope e) → AMap.contains p.cannot c.ref = true ∨ ∃ t, (c.ref, t) ∈ p.complete)) := by
  have h := finv_loop n (finv_start start) hp
  refine ⟨fun r t ht => ?_, h.cannot, h.next, fun hone c k hc => ⟨fun e he => ?_, fun hno => ?_⟩⟩
  · obtain ⟨c, k, e, g1, g2, g3, g4, _⟩ := h.done r t ht
    exact ⟨c, k, e, g1, g2, g3, g4⟩
  · rcases h.dealt hone hc with ⟨t, ht⟩ | ⟨_, hno⟩
    · obtain ⟨c0, k0, e0, g1, g2, g3, g4, g5⟩ := h.done _ _ ht
      have := hone _ _ _ _ _ _ g1 hc g2 g3 he
      subst this
      exact ⟨by rw [g4]; exact ht, fun r k' ha => ⟨(g5 r k' ha).1, (g5 r k' ha).2.1⟩⟩
    · exact absurd he (hno e)
  · exact (h.dealt hone hc).elim .inr (fun h => .inl h.1)

/-- A store that cannot look up 7: content 1 is reported with its plaintext and as impossible, its missing ancestor 9 as missing, and its
ancestor 2 with its plaintext. -/
example : loop (fun r => if r = 7 then .error else if r = 9 then .absent else .found ⟨r, 7, 1, 0⟩)
    (fun c _ => .envelope (if c.ref = 1 then ⟨51, [(2, 102), (7, 107), (9, 109)]⟩ else ⟨52, []⟩)) 5 Progress.new [(⟨1, 7, 1, 0⟩, 101)] =
    some ⟨[(1, 51), (2, 52)], [(2, 102), (1, 101)], [(9, 109)], [(1, .getCiphertext)], [2]⟩ := by decide +kernel

/-- The in-memory store never fails, whatever was done to it. -/
theorem C46_memory_store_reliable {H : Ct → Nat} (hH : Function.Injective H) (cmds : List Cmd) : Reliable (runAll H cmds).got :=
  reliable_store hH cmds

/-- What is decrypted leaves the in-memory store, and nothing else does. -/
theorem C46_marked {H : Ct → Nat} (hH : Function.Injective H) (cmds : List Cmd) (hu : RemovalsUnambiguous cmds)
    {opened : Ct → Key → Opened} {n : Nat} {start : List (Ct × Key)} {s : Store} {p : Progress}
    (h : causalDecrypt opened n (runAll H cmds) start = some (s, p)) (r : Ref) :
    s.getByRef r = none ↔ (runAll H cmds).getByRef r = none ∨ ∃ t, (r, t) ∈ p.complete := by
  obtain ⟨ins, _, hi⟩ := inv_of_cmds hH cmds hu
  obtain ⟨p', hp, he⟩ := Option.map_eq_some_iff.1 h
  cases he
  obtain ⟨l', h1, h2⟩ := hi.markAll hH p.complete
  rw [(h1.getByRef r).1, (hi.getByRef r).1]
  constructor
  · intro hall
    by_cases hc : ∃ t, (r, t) ∈ p.complete
    · exact .inr hc
    · refine .inl (fun c hcl hcr => hall c ((h2 c).2 ⟨hcl, fun t ht => hc ⟨t, hcr ▸ ht⟩⟩) hcr)
  · rintro (h3 | ⟨t, ht⟩) c hc
    · exact h3 c ((h2 c).1 hc).1
    · intro hcr
      exact ((h2 c).1 hc).2 t (hcr ▸ ht)

namespace Sample

/-- Four ciphertexts: 3 has the ancestors 1, 2 and the missing 9; 1 and 2 have the common ancestor 0. The key of `n` is `100 + n`. -/
def diamond : List Ct := [⟨0, 7, 1, 0⟩, ⟨1, 7, 1, 0⟩, ⟨2, 7, 1, 0⟩, ⟨3, 7, 1, 0⟩]

/-- Opens a ciphertext of the diamond. -/
def opened (c : Ct) (k : Key) : Opened :=
  if k = 100 + c.ref then
    match c.ref with
    | 0 => .envelope ⟨1000, []⟩
    | 1 => .envelope ⟨1001, [(0, 100)]⟩
    | 2 => .envelope ⟨1002, [(0, 100)]⟩
    | 3 => .envelope ⟨1003, [(1, 101), (2, 102), (9, 109)]⟩
    | _ => .garbage
  else .failed

theorem opened_one (get : Ref → Got) (start : List (Ct × Key)) : OneEnvelope get opened start := by
  intro c k e c' k' e' _ _ hr h1 h2
  unfold opened at h1 h2
  split at h1
  · split at h2
    · rw [← hr] at h2
      rw [h1] at h2
      injection h2
    · cases h2
  · cases h1

end Sample

example : (causalDecrypt Sample.opened 10 (runAll H (Sample.diamond.map .insert)) [(⟨3, 7, 1, 0⟩, 103)]).map
    (fun x => (x.2.complete, x.2.next, x.2.cannot)) =
    some ([(3, 1003), (2, 1002), (0, 1000), (1, 1001)], [(9, 109)], []) := by decide +kernel

/-- C46 for the content of a document: what is decrypted starts from exactly those ancestors of the content that are in the store;
everything that can be reached from them and opened is reported, if what can be reached for one reference opens to one envelope
only. Missing: ancestors of the content itself that are not in the store are not reported (`C46_fails`). -/
theorem C46_document_partial {H : Ct → Nat} (hH : Function.Injective H) (cmds : List Cmd) {opened : Ct → Key → Opened} {n : Nat}
    {entry : Envelope} {s' : Store} {p : Progress} (h : docCausalDecrypt opened n (runAll H cmds) entry = some (s', p)) :
    ∃ start : List (Ct × Key),
      (∀ c k, (c, k) ∈ start ↔ ∃ r, (r, k) ∈ entry.ancestors ∧ (runAll H cmds).getByRef r = some c) ∧
      (OneEnvelope (runAll H cmds).got opened start → ∀ c k e, Reach (runAll H cmds).got opened start c k →
        opened c k = .envelope e → (c.ref, e.plaintext) ∈ p.complete) := by
  have hm : ∀ (s : Store) (l : List (Ref × Key)) (acc : List (Ct × Key)) (c : Ct) (k : Key),
      (c, k) ∈ l.foldl (pushFound s) acc ↔
        (c, k) ∈ acc ∨ ∃ r, (r, k) ∈ l ∧ s.getByRef r = some c := by
    intro s l
    induction l with
    | nil => simp
    | cons a l ih =>
      intro acc c k
      rw [List.foldl_cons, ih, pushFound]
      cases ha : s.getByRef a.1 with
      | none =>
        simp only
        constructor
        · rintro (h1 | ⟨r, h1, h2⟩)
          · exact .inl h1
          · exact .inr ⟨r, by simp [h1], h2⟩
        · rintro (h1 | ⟨r, h1, h2⟩)
          · exact .inl h1
          · rcases List.mem_cons.1 h1 with h3 | h3
            · rw [← h3] at ha
              rw [ha] at h2
              cases h2
            · exact .inr ⟨r, h3, h2⟩
      | some c0 =>
        simp only [List.mem_cons, Prod.mk.injEq]
        constructor
        · rintro ((⟨rfl, rfl⟩ | h1) | ⟨r, h1, h2⟩)
          · exact .inr ⟨a.1, .inl rfl, ha⟩
          · exact .inl h1
          · exact .inr ⟨r, .inr h1, h2⟩
        · rintro (h1 | ⟨r, h1 | h1, h2⟩)
          · exact .inl (.inr h1)
          · subst h1
            rw [ha] at h2
            cases h2
            exact .inl (.inl ⟨rfl, rfl⟩)
          · exact .inr ⟨r, h1, h2⟩
  unfold docCausalDecrypt causalDecrypt at h
  obtain ⟨p', hp, he⟩ := Option.map_eq_some_iff.1 h
  cases he
  refine ⟨_, fun c k => (hm (runAll H cmds) entry.ancestors [] c k).trans (by simp), fun hone c k e hc ho => ?_⟩
  exact (C46_complete (C46_memory_store_reliable hH cmds) _ hone n _ hp hc).1 e ho |>.1

example : (docCausalDecrypt Sample.opened 10 (runAll H (Sample.diamond.map .insert)) ⟨1003, [(1, 101), (2, 102), (9, 109)]⟩).map
    (fun x => (x.2.complete, x.2.next, x.2.cannot)) = some ([(2, 1002), (0, 1000), (1, 1001)], [], []) := by decide +kernel

theorem never_ends : ∀ (n : Nat) (p : Progress), p.seen = [] →
    loop (fun r => if r = 0 then .found ⟨0, 7, 1, 0⟩ else .error) (fun _ _ => .envelope ⟨1, [(0, 5), (1, 6)]⟩) n p
      [(⟨0, 7, 1, 0⟩, 5)] = none := by
  intro n
  induction n with
  | zero => intro p _; rfl
  | succ n ih =>
    intro p hp
    unfold loop
    simp only [visit, hp, List.not_mem_nil, if_false, visitAncestors, if_true]
    refine ih _ ?_
    simp [sinsert, sremove]

/-- C46 fails in three ways. (1) Decrypting from the content of a document, ancestors of that content that are not in the store are
not reported. (2) With a store that can fail, one envelope that names itself and an ancestor whose lookup fails makes causal
decryption go on for ever. (3) The reported keys include keys that open nothing. -/
theorem C46_fails :
    (∃ (opened : Ct → Key → Opened) (s s' : Store) (entry : Envelope) (p : Progress) (r : Ref) (k : Key),
      (r, k) ∈ entry.ancestors ∧ s.getByRef r = none ∧ docCausalDecrypt opened 5 s entry = some (s', p) ∧
      AMap.contains p.next r = false ∧ p.cannot = []) ∧
    (∃ (get : Ref → Got) (opened : Ct → Key → Opened) (start : List (Ct × Key)),
      ∀ n, loop get opened n Progress.new start = none) ∧
    (∃ (opened : Ct → Key → Opened) (s s' : Store) (start : List (Ct × Key)) (p : Progress) (r : Ref) (k : Key),
      causalDecrypt opened 5 s start = some (s', p) ∧ AMap.get p.keys r = some k ∧ ∀ c e, opened c k ≠ .envelope e) := by
  refine ⟨⟨Sample.opened, runAll H [], runAll H [], ⟨1003, [(9, 109)]⟩, Progress.new, 9, 109, by decide, by decide +kernel,
      by decide +kernel, by decide, rfl⟩,
    ⟨_, _, _, fun n => never_ends n Progress.new rfl⟩,
    ⟨fun _ _ => .failed, runAll H [], runAll H [], [(⟨3, 7, 1, 0⟩, 66)], ⟨[], [(3, 66)], [], [(3, .decryption 66)], []⟩, 3, 66,
      by decide +kernel, by decide +kernel, by simp⟩⟩

/-! ## C70 — junk does not hide genuine ciphertexts -/

/-- C70 fails: a longer ciphertext that nobody can open, inserted under the reference of a genuine one, hides it; causal decryption
then fails for it although the genuine ciphertext is in the store and its key is known. -/
theorem C70_fails :
    ∃ (opened : Ct → Key → Opened) (cmds : List Cmd) (genuine junk : Ct) (k : Key) (e : Envelope) (s : Store) (p : Progress),
      (∀ d, Cmd.remove d ∉ cmds) ∧ genuine ∈ live H cmds ∧ opened genuine k = .envelope e ∧ genuine.ref = junk.ref ∧
      (∀ k e, opened junk k ≠ .envelope e) ∧
      docCausalDecrypt opened 5 (runAll H cmds) ⟨1, [(genuine.ref, k)]⟩ = some (s, p) ∧
      AMap.contains p.cannot genuine.ref = true ∧ p.complete = [] := by
  refine ⟨fun c k => if c.size = 1 then Sample.opened c k else .failed, [.insert ⟨0, 7, 1, 0⟩, .insert ⟨0, 8, 2, 0⟩],
    ⟨0, 7, 1, 0⟩, ⟨0, 8, 2, 0⟩, 100, ⟨1000, []⟩,
    runAll H [.insert ⟨0, 7, 1, 0⟩, .insert ⟨0, 8, 2, 0⟩], ⟨[], [(0, 100)], [], [(0, .decryption 100)], []⟩,
    by simp, by decide +kernel, by decide +kernel, rfl, by simp, by decide +kernel, by decide +kernel, rfl⟩

/-- C70, the part that holds: as long as each content has one ciphertext in the store, a lookup finds it. -/
theorem C70_only_one_partial {H : Ct → Nat} (hH : Function.Injective H) (cmds : List Cmd) (hu : RemovalsUnambiguous cmds) (c : Ct)
    (hc : c ∈ live H cmds) (hone : ∀ c' ∈ live H cmds, c'.ref = c.ref → c' = c) : (runAll H cmds).getByRef c.ref = some c := by
  obtain ⟨h1, h2⟩ := C45_by_reference_partial hH cmds hu c.ref
  cases hg : (runAll H cmds).getByRef c.ref with
  | none => exact absurd rfl (h1.1 hg c hc)
  | some c' => rw [hone c' (h2 c' hg).1 (h2 c' hg).2.1]

example : (⟨2, 11, 6, 1⟩ : Ct) ∈ live H [.insert ⟨1, 10, 5, 0⟩, .insert ⟨1, 11, 6, 1⟩, .insert ⟨2, 11, 6, 1⟩] ∧
    ∀ c' ∈ live H [.insert ⟨1, 10, 5, 0⟩, .insert ⟨1, 11, 6, 1⟩, .insert ⟨2, 11, 6, 1⟩],
      c'.ref = (⟨2, 11, 6, 1⟩ : Ct).ref → c' = ⟨2, 11, 6, 1⟩ := by decide +kernel

end Verif.Cipher.Props
