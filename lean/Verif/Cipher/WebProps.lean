import Verif.Cipher.Web
import Verif.Cipher.Props

/-! # What has become readable, and the store kept in a browser -/

namespace Verif.Cipher

/-! ## Lemmas -/

/-- The updates of one document among the events, in their order. -/
def updatesOf (d : Nat) (es : List NewEvent) : List OpHash :=
  es.filterMap (fun | .cgka o d' => if d' = d then some o else none | .other => none)

theorem decryptable_spec (f : OpHash → Option (List Ct)) (es : List NewEvent) (acc : AMap Nat (List Ct)) :
    (nowDecryptable f es acc = none ↔ ∃ o d, NewEvent.cgka o d ∈ es ∧ f o = none) ∧
    ∀ m, nowDecryptable f es acc = some m → ∀ d, AMap.get m d =
      if updatesOf d es = [] then AMap.get acc d
      else some ((AMap.get acc d).getD [] ++ (updatesOf d es).flatMap (fun o => (f o).getD [])) := by
  induction es generalizing acc with
  | nil =>
    refine ⟨by simp [nowDecryptable], fun m hm d => ?_⟩
    cases hm
    simp [updatesOf]
  | cons e es ih =>
    cases e with
    | other => simpa [nowDecryptable, updatesOf] using ih acc
    | cgka o d0 =>
      cases ho : f o with
      | none =>
        refine ⟨?_, fun m hm => ?_⟩
        · simp only [nowDecryptable, ho, true_iff]
          exact ⟨o, d0, List.mem_cons_self .., ho⟩
        · simp [nowDecryptable, ho] at hm
      | some more =>
        obtain ⟨h1, h2⟩ := ih (AMap.insert acc d0 ((AMap.get acc d0).getD [] ++ more))
        simp only [nowDecryptable, ho]
        refine ⟨h1.trans ⟨fun ⟨a, b, h, g⟩ => ⟨a, b, List.mem_cons_of_mem _ h, g⟩, fun ⟨a, b, h, g⟩ => ?_⟩, fun m hm d => ?_⟩
        · rcases List.mem_cons.1 h with h | h
          · cases h
            rw [ho] at g
            cases g
          · exact ⟨a, b, h, g⟩
        · rw [h2 m hm d, AMap.get_insert]
          have hu : updatesOf d (.cgka o d0 :: es) = if d0 = d then o :: updatesOf d es else updatesOf d es := by
            simp only [updatesOf, List.filterMap_cons]
            split <;> rename_i hx <;> split at hx <;> simp_all
          rw [hu]
          by_cases hd : d0 = d
          · subst hd
            by_cases hn : updatesOf d0 es = []
            · simp [hn, ho]
            · simp [hn, ho, List.append_assoc]
          · rw [if_neg hd, if_neg (Ne.symm hd)]

theorem readAll_spec (w : Web) (ns : List Nat) :
    (w.readAll ns = none ↔ ∃ n ∈ ns, AMap.get w n = some .junk) ∧
    ∀ l, w.readAll ns = some l → l = ns.filterMap (fun n => match AMap.get w n with | some (.ct c) => some c | _ => none) := by
  induction ns with
  | nil => simp [Web.readAll]
  | cons n ns ih =>
    cases hn : AMap.get w n with
    | none => simpa [Web.readAll, hn] using ih
    | some i =>
      cases i with
      | junk => simp [Web.readAll, hn]
      | ct c =>
        simp only [Web.readAll, hn, Option.map_eq_none_iff, Option.map_eq_some_iff]
        refine ⟨by simpa [hn] using ih.1, fun l ⟨l', h1, h2⟩ => ?_⟩
        rw [← h2, ih.2 l' h1, List.filterMap_cons, hn]

theorem get_markAll (name : Ref → Nat) (done : List (Ref × Nat)) (w : Web) (n : Nat) :
    AMap.get (w.markAll name done) n = if ∃ p ∈ done, name p.1 = n then none else AMap.get w n := by
  induction done generalizing w with
  | nil => simp [Web.markAll]
  | cons p done ih =>
    show AMap.get (Web.markAll name (w.mark name p.1) done) n = _
    rw [ih, Web.mark, AMap.get_erase]
    by_cases h1 : n = name p.1
    · simp [h1]
    · by_cases h2 : ∃ q ∈ done, name q.1 = n
      · rw [if_pos h2, if_pos]
        obtain ⟨q, h3, h4⟩ := h2
        exact ⟨q, List.mem_cons_of_mem _ h3, h4⟩
      · rw [if_neg h2, if_neg h1, if_neg]
        rintro ⟨q, h3, h4⟩
        rcases List.mem_cons.1 h3 with h3 | h3
        · exact h1 (h3 ▸ h4.symm)
        · exact h2 ⟨q, h3, h4⟩

namespace WebProps

open Props.Sample (H H_injective)

/-! ## C103 — what has become readable -/

/-- C103: asking which ciphertexts new events make readable fails exactly if the store fails for the update of one of the events. -/
theorem C103_error (f : OpHash → Option (List Ct)) (es : List NewEvent) :
    nowDecryptable f es [] = none ↔ ∃ o d, NewEvent.cgka o d ∈ es ∧ f o = none :=
  (decryptable_spec f es []).1

/-- C103: otherwise the answer names exactly the documents that have a key-agreement operation among the events. -/
theorem C103_documents (f : OpHash → Option (List Ct)) (es : List NewEvent) (m : AMap Nat (List Ct))
    (h : nowDecryptable f es [] = some m) (d : Nat) :
    (AMap.get m d).isSome = true ↔ ∃ o, NewEvent.cgka o d ∈ es := by
  rw [(decryptable_spec f es []).2 m h d]
  have : updatesOf d es = [] ↔ ¬ ∃ o, NewEvent.cgka o d ∈ es := by
    rw [List.eq_nil_iff_forall_not_mem]
    unfold updatesOf
    constructor
    · rintro h1 ⟨o, h2⟩
      exact h1 o (List.mem_filterMap.2 ⟨_, h2, by simp⟩)
    · intro h1 o h2
      obtain ⟨e, h3, h4⟩ := List.mem_filterMap.1 h2
      cases e with
      | other => cases h4
      | cgka o' d' =>
        dsimp only at h4
        split at h4
        · rename_i hd
          exact h1 ⟨o', hd ▸ h3⟩
        · cases h4
  by_cases hn : updatesOf d es = []
  · simp [hn, this.1 hn]
  · have := not_not.1 (mt this.2 hn)
    simp [hn, this]

/-- C103: and lists for a document what the store has for the updates of that document among the events, once for each time such an
event is given. -/
theorem C103_listed (f : OpHash → Option (List Ct)) (es : List NewEvent) (m : AMap Nat (List Ct))
    (h : nowDecryptable f es [] = some m) (d : Nat) (l : List Ct) (hl : AMap.get m d = some l) :
    (∀ c, c ∈ l ↔ ∃ o cs, NewEvent.cgka o d ∈ es ∧ f o = some cs ∧ c ∈ cs) ∧
    l.length = (es.map (fun | .cgka o d' => if d' = d then ((f o).getD []).length else 0 | .other => 0)).sum := by
  have hs := (decryptable_spec f es []).2 m h d
  rw [hl] at hs
  have hle : l = (updatesOf d es).flatMap (fun o => (f o).getD []) := by
    split at hs
    · cases hs
    · simpa using hs
  subst hle
  constructor
  · intro c
    simp only [List.mem_flatMap, updatesOf, List.mem_filterMap]
    constructor
    · rintro ⟨o, ⟨e, h1, h2⟩, h3⟩
      cases e with
      | other => cases h2
      | cgka o' d' =>
        dsimp only at h2
        split at h2
        · rename_i hd
          cases h2
          cases ho : f o with
          | none => simp [ho] at h3
          | some cs => exact ⟨o, cs, hd ▸ h1, ho, by simpa [ho] using h3⟩
        · cases h2
    · rintro ⟨o, cs, h1, h2, h3⟩
      exact ⟨o, ⟨_, h1, by simp⟩, by simpa [h2] using h3⟩
  · clear hs hl h
    induction es with
    | nil => rfl
    | cons e es ih =>
      cases e with
      | other => simpa [updatesOf] using ih
      | cgka o d' =>
        by_cases hd : d' = d
        · simp only [updatesOf, List.filterMap_cons, hd, if_true, List.flatMap_cons, List.length_append, List.map_cons, List.sum_cons]
          rw [show (List.filterMap _ es) = updatesOf d es from rfl, ih]
        · simp only [updatesOf, List.filterMap_cons, hd, if_false, List.map_cons, List.sum_cons, Nat.zero_add]
          exact ih

example : (nowDecryptable (runAll H [.insert ⟨1, 10, 5, 0⟩, .insert ⟨2, 11, 6, 1⟩, .insert ⟨3, 12, 6, 1⟩]).byUpdate
    [.cgka 10 70, .other, .cgka 11 71, .cgka 13 70] []).map (fun m => (AMap.get m 70, AMap.get m 71, AMap.get m 72)) =
    some (some [⟨1, 10, 5, 0⟩], some [⟨2, 11, 6, 1⟩], none) := by decide +kernel

/-- C103, for the in-memory store: it never fails. As long as no single ciphertext is removed, or no two ciphertexts are for the same
content under the same update, the answer for a document has every ciphertext of each of its updates among the events that was
inserted and not removed, and only such ciphertexts; and only ones of these updates if no content is encrypted under two updates.
Missing: the last condition, see `C103_fails`. -/
theorem C103_memory_partial {H : Ct → Nat} (hH : Function.Injective H) (cmds : List Cmd) (hu : RemovalsUnambiguous cmds)
    (es : List NewEvent) :
    ∃ m, nowDecryptable (runAll H cmds).byUpdate es [] = some m ∧
      ∀ o d, NewEvent.cgka o d ∈ es → ∃ l, AMap.get m d = some l ∧
        (∀ c ∈ live H cmds, c.op = o → c ∈ l) ∧
        (∀ c ∈ l, c ∈ live H cmds) ∧
        ((∀ a ∈ inserted cmds, ∀ b ∈ inserted cmds, a.ref = b.ref → a.op = b.op) → ∀ c ∈ l, NewEvent.cgka c.op d ∈ es) := by
  cases hm : nowDecryptable (runAll H cmds).byUpdate es [] with
  | none =>
    obtain ⟨o, d, _, h⟩ := (C103_error _ _).1 hm
    cases h
  | some m =>
    refine ⟨m, rfl, fun o d hod => ?_⟩
    obtain ⟨l, hl⟩ := Option.isSome_iff_exists.1 ((C103_documents _ _ m hm d).2 ⟨o, hod⟩)
    have hc := (C103_listed _ _ m hm d l hl).1
    refine ⟨l, hl, fun c h1 h2 => (hc c).2 ⟨o, _, hod, rfl, (Props.C45_by_update_partial hH cmds hu o c).1 h1 h2⟩, fun c h => ?_,
      fun hone c h => ?_⟩
    · obtain ⟨o', cs, h1, h2, h3⟩ := (hc c).1 h
      cases h2
      exact (Props.C45_by_update_partial hH cmds hu o' c).2.1 h3
    · obtain ⟨o', cs, h1, h2, h3⟩ := (hc c).1 h
      cases h2
      rw [(Props.C45_by_update_partial hH cmds hu o' c).2.2 hone h3]
      exact h1

/-- C103 fails. (1) With the in-memory store, a ciphertext whose update is not among the events is listed. (2) With the store kept in
a browser, a ciphertext is listed under a document whose updates it does not belong to, while its own update is among the events for
another document. (3) And one text in it that is no ciphertext makes the call fail, although it has a ciphertext of the update asked
about. -/
theorem C103_fails :
    (∃ cmds es m d l c, (∀ x, Cmd.remove x ∉ cmds) ∧ nowDecryptable (runAll H cmds).byUpdate es [] = some m ∧
      AMap.get m d = some l ∧ c ∈ l ∧ ∀ d', NewEvent.cgka c.op d' ∉ es) ∧
    (∃ (w : Web) (es : List NewEvent) (m : AMap Nat (List Ct)) (d d' : Nat) (l : List Ct) (c : Ct),
      nowDecryptable w.byUpdate es [] = some m ∧ AMap.get m d = some l ∧ c ∈ l ∧ NewEvent.cgka c.op d ∉ es ∧
      NewEvent.cgka c.op d' ∈ es) ∧
    (∃ (w : Web) (o d n : Nat) (c : Ct), AMap.get w n = some (.ct c) ∧ c.op = o ∧
      nowDecryptable w.byUpdate [.cgka o d] [] = none) := by
  refine ⟨⟨[.insert ⟨1, 10, 5, 0⟩, .insert ⟨1, 11, 6, 1⟩], [.cgka 10 70], [(70, [⟨1, 11, 6, 1⟩, ⟨1, 10, 5, 0⟩])], 70, _, ⟨1, 11, 6, 1⟩, ?_,
      by decide +kernel, rfl, ?_, ?_⟩,
    ⟨[(1, .ct ⟨1, 10, 5, 0⟩), (2, .ct ⟨2, 11, 6, 1⟩)], [.cgka 10 70, .cgka 11 71],
      [(71, [⟨1, 10, 5, 0⟩, ⟨2, 11, 6, 1⟩]), (70, [⟨1, 10, 5, 0⟩, ⟨2, 11, 6, 1⟩])], 70, 71, _, ⟨2, 11, 6, 1⟩,
      by decide +kernel, rfl, ?_, ?_, ?_⟩,
    ⟨[(1, .ct ⟨1, 10, 5, 0⟩), (9, .junk)], 10, 70, 1, ⟨1, 10, 5, 0⟩, by decide +kernel, rfl, by decide +kernel⟩⟩
  all_goals simp

/-! ## C104 — the store kept in a browser -/

/-- Every ciphertext is kept under the name of its content reference. -/
def InPlace (name : Ref → Nat) (w : Web) : Prop := ∀ n c, AMap.get w n = some (.ct c) → n = name c.ref

/-- C104: if every ciphertext is kept under the name of its reference, looking up a reference gives the ciphertext for it that is kept,
nothing if no text is kept under its name, and an error if that text is no ciphertext. -/
theorem C104_reference {name : Ref → Nat} (hn : Function.Injective name) (w : Web) (hw : InPlace name w) (r : Ref) :
    (∀ c, w.got name r = .found c ↔ (∃ n, AMap.get w n = some (.ct c)) ∧ c.ref = r) ∧
    (w.got name r = .absent ↔ AMap.get w (name r) = none) ∧
    (w.got name r = .error ↔ AMap.get w (name r) = some .junk) := by
  unfold Web.got
  cases hg : AMap.get w (name r) with
  | none =>
    refine ⟨fun c => ⟨fun h => (by cases h), fun ⟨⟨n, h1⟩, h2⟩ => ?_⟩, by simp, by simp⟩
    have := hw n c h1
    rw [this, h2, hg] at h1
    cases h1
  | some i =>
    cases i with
    | junk =>
      refine ⟨fun c => ⟨fun h => (by cases h), fun ⟨⟨n, h1⟩, h2⟩ => ?_⟩, by simp, by simp⟩
      have := hw n c h1
      rw [this, h2, hg] at h1
      cases h1
    | ct c0 =>
      refine ⟨fun c => ⟨fun h => ?_, fun ⟨⟨n, h1⟩, h2⟩ => ?_⟩, by simp, by simp⟩
      · cases h
        exact ⟨⟨_, hg⟩, (hn (hw _ _ hg)).symm⟩
      · have := hw n c h1
        rw [this, h2, hg] at h1
        cases h1
        rfl

/-- C104: marking a reference as decrypted takes away what is kept under its name and nothing else. -/
theorem C104_marked {name : Ref → Nat} (hn : Function.Injective name) (w : Web) (r r' : Ref) :
    (w.mark name r).got name r' = if r' = r then .absent else w.got name r' := by
  unfold Web.got Web.mark
  rw [AMap.get_erase]
  by_cases h : r' = r
  · simp [h]
  · rw [if_neg (fun he => h (hn he)), if_neg h]

/-- C104: asking for the ciphertexts of an update gives every ciphertext that is kept, whatever the update, and fails exactly if some
text that is kept is no ciphertext. -/
theorem C104_update (w : Web) (o : OpHash) :
    (w.byUpdate o = none ↔ ∃ n, AMap.get w n = some .junk) ∧
    ∀ l, w.byUpdate o = some l → ∀ c, c ∈ l ↔ ∃ n, AMap.get w n = some (.ct c) := by
  obtain ⟨h1, h2⟩ := readAll_spec w (AMap.keys w)
  refine ⟨h1.trans ⟨fun ⟨n, _, h⟩ => ⟨n, h⟩, fun ⟨n, h⟩ => ⟨n, ?_, h⟩⟩, fun l hl c => ?_⟩
  · exact (AMap.mem_keys_iff w n).2 (by rw [h]; simp)
  · rw [h2 l hl, List.mem_filterMap]
    constructor
    · rintro ⟨n, _, h⟩
      cases hg : AMap.get w n with
      | none => simp [hg] at h
      | some i =>
        cases i with
        | junk => simp [hg] at h
        | ct c' =>
          simp only [hg, Option.some.injEq] at h
          exact ⟨n, by rw [hg, h]⟩
    · rintro ⟨n, h⟩
      exact ⟨n, (AMap.mem_keys_iff w n).2 (by rw [h]; simp), by simp [h]⟩

/-- C104: if moreover everything kept is a ciphertext, causal decryption ends with everything reported that can be reached and opened
(if what can be reached for one reference opens to one envelope only), and afterwards exactly the references whose content was
reported have left the store. -/
theorem C104_decrypt {name : Ref → Nat} (hn : Function.Injective name) (w : Web) (hw : InPlace name w)
    (hj : ∀ n, AMap.get w n ≠ some .junk) (opened : Ct → Key → Opened) (start : List (Ct × Key)) :
    ∃ n w' p, (∀ m, n ≤ m → w.causalDecrypt name opened m start = some (w', p)) ∧
      (∀ r t, (r, t) ∈ p.complete → ∃ c k e, Reach (w.got name) opened start c k ∧ c.ref = r ∧ opened c k = .envelope e ∧
        e.plaintext = t) ∧
      (OneEnvelope (w.got name) opened start → ∀ c k e, Reach (w.got name) opened start c k → opened c k = .envelope e →
        (c.ref, e.plaintext) ∈ p.complete) ∧
      ∀ r, w'.got name r = if r ∈ p.complete.map Prod.fst then .absent else w.got name r := by
  have hr : Reliable (w.got name) := by
    refine ⟨fun r h => hj _ ((C104_reference hn w hw r).2.2.1 h), fun r c h => (((C104_reference hn w hw r).1 c).1 h).2, ?_⟩
    refine ⟨(AMap.values w).filterMap (fun | .ct c => some c.ref | .junk => none), fun r c h => ?_⟩
    obtain ⟨⟨n, h1⟩, h2⟩ := ((C104_reference hn w hw r).1 c).1 h
    exact List.mem_filterMap.2 ⟨.ct c, List.mem_map.2 ⟨(n, .ct c), AMap.mem_of_get h1, rfl⟩, by simp [h2]⟩
  obtain ⟨n, p, h1, h2, -, -, -⟩ := Props.C46_terminates_sound (opened := opened) hr start
  refine ⟨n, w.markAll name p.complete, p, fun m hm => by simp [Web.causalDecrypt, h1 m hm], fun r t h => ?_,
    fun hone c k e hc ho => ((Props.C46_complete hr start hone n p (h1 n (Nat.le_refl _)) hc).1 e ho).1, fun r => ?_⟩
  · obtain ⟨c, k, e, g1, g2, g3, g4, -⟩ := h2 r t h
    exact ⟨c, k, e, g1, g2, g3, g4⟩
  · unfold Web.got
    rw [get_markAll]
    by_cases hp : r ∈ p.complete.map Prod.fst
    · obtain ⟨q, hq, he⟩ := List.mem_map.1 hp
      rw [if_pos ⟨q, hq, by rw [he]⟩, if_pos hp]
    · rw [if_neg hp, if_neg]
      rintro ⟨q, h3, h4⟩
      exact hp (List.mem_map.2 ⟨q, h3, hn h4⟩)

/-- The diamond kept in a browser, next to nothing else. -/
def kept : Web := Props.Sample.diamond.map (fun c => (c.ref + 40, .ct c))

example : Function.Injective (· + 40 : Ref → Nat) ∧ InPlace (· + 40) kept ∧ (∀ n, AMap.get kept n ≠ some .junk) ∧
    (kept.causalDecrypt (· + 40) Props.Sample.opened 10 [(⟨3, 7, 1, 0⟩, 103)]).map
      (fun x => (x.2.complete, x.2.next, x.2.cannot)) =
    some ([(3, 1003), (2, 1002), (0, 1000), (1, 1001)], [(9, 109)], []) ∧
    (kept.causalDecrypt (· + 40) Props.Sample.opened 10 [(⟨3, 7, 1, 0⟩, 103)]).map (fun x => x.1.length) = some 0 := by
  refine ⟨fun a b h => Nat.add_right_cancel h, fun n c h => ?_, fun n h => ?_, by decide +kernel, by decide +kernel⟩
  · have := AMap.mem_of_get h
    simp only [kept, Props.Sample.diamond, List.map_cons, List.map_nil, List.mem_cons, Prod.mk.injEq, List.not_mem_nil, or_false] at this
    rcases this with ⟨h1, h2⟩ | ⟨h1, h2⟩ | ⟨h1, h2⟩ | ⟨h1, h2⟩ <;> cases h2 <;> exact h1
  · have := AMap.mem_of_get h
    simp [kept, Props.Sample.diamond] at this

/-- C104 fails for a store with other texts in it: asking for the ciphertexts of an update gives ones of other updates; one other text
makes it fail; and causal decryption of an envelope that names itself and a reference whose name is taken by another text never
ends. -/
theorem C104_fails :
    (∃ (w : Web) (o : OpHash) (l : List Ct) (c : Ct), w.byUpdate o = some l ∧ c ∈ l ∧ c.op ≠ o) ∧
    (∃ (w : Web) (n : Nat) (c : Ct), AMap.get w n = some (.ct c) ∧ w.byUpdate c.op = none) ∧
    (∃ (w : Web) (opened : Ct → Key → Opened) (start : List (Ct × Key)), ∀ n, w.causalDecrypt (fun r => r) opened n start = none) := by
  refine ⟨⟨[(1, .ct ⟨1, 10, 5, 0⟩)], 11, [⟨1, 10, 5, 0⟩], ⟨1, 10, 5, 0⟩, by decide +kernel, by simp, by simp⟩,
    ⟨[(1, .ct ⟨1, 10, 5, 0⟩), (9, .junk)], 1, ⟨1, 10, 5, 0⟩, by decide +kernel, by decide +kernel⟩,
    ⟨[(0, .ct ⟨0, 7, 1, 0⟩), (1, .junk)], fun _ _ => .envelope ⟨1, [(0, 5), (1, 6)]⟩, [(⟨0, 7, 1, 0⟩, 5)], fun n => ?_⟩⟩
  have key : ∀ (n : Nat) (p : Progress), p.seen = [] →
      loop (Web.got (fun r => r) [(0, .ct ⟨0, 7, 1, 0⟩), (1, .junk)]) (fun _ _ => .envelope ⟨1, [(0, 5), (1, 6)]⟩) n p
        [(⟨0, 7, 1, 0⟩, 5)] = none := by
    intro n
    induction n with
    | zero => intro p _; rfl
    | succ n ih =>
      intro p hp
      unfold loop
      simp only [visit, hp, List.not_mem_nil, if_false, visitAncestors, Web.got, AMap.get_cons, if_true, Nat.zero_ne_one, if_false]
      refine ih _ ?_
      simp [sinsert, sremove]
  simp [Web.causalDecrypt, key n Progress.new rfl]

end WebProps

end Verif.Cipher
