import Verif.Core.Access
import Verif.Core.CaMap
import Verif.Core.Transact
import Verif.Core.Listener
import Verif.Core.RevocationStore

/-!
# Properties C48, C49, C50, C51, C55: access levels, content-addressed maps, transactions,
the revocation index, queue listeners
-/

namespace Verif

/-! ## C48 — access levels -/

/-- The names accepted by the bindings, lower case. -/
def Access.name : Access → String
  | .relay => "relay"
  | .read => "read"
  | .edit => "edit"
  | .admin => "admin"

/-- **C48 (order)**: `≤` is a total order, relay < read < edit < admin, and `max`/`min` are its
join and meet. -/
theorem C48_total_order :
    (Access.relay < Access.read ∧ Access.read < Access.edit ∧ Access.edit < Access.admin) ∧
    (∀ a : Access, a ≤ a) ∧ (∀ a b : Access, a ≤ b → b ≤ a → a = b) ∧
    (∀ a b c : Access, a ≤ b → b ≤ c → a ≤ c) ∧ (∀ a b : Access, a ≤ b ∨ b ≤ a) ∧
    (∀ a b c : Access, Access.max a b ≤ c ↔ a ≤ c ∧ b ≤ c) ∧
    (∀ a b c : Access, c ≤ Access.min a b ↔ c ≤ a ∧ c ≤ b) := by
  refine ⟨by decide, ?_, ?_, ?_, ?_, ?_, ?_⟩
  · intro a; cases a <;> decide
  · intro a b; cases a <;> cases b <;> decide
  · intro a b c; cases a <;> cases b <;> cases c <;> decide
  · intro a b; cases a <;> cases b <;> decide
  · intro a b c; cases a <;> cases b <;> cases c <;> decide
  · intro a b c; cases a <;> cases b <;> cases c <;> decide

/-- **C48 (predicates)**: reader and editor predicates are monotone, editors are readers, relay is
neither, and the bindings' level/compare/atLeast agree with the order. -/
theorem C48_predicates :
    (∀ a b : Access, a ≤ b → a.isReader = true → b.isReader = true) ∧
    (∀ a b : Access, a ≤ b → a.isEditor = true → b.isEditor = true) ∧
    (∀ a : Access, a.isEditor = true → a.isReader = true) ∧
    (∀ a : Access, a.isReader = true ↔ a ≠ .relay) ∧
    (∀ a : Access, a.isEditor = true ↔ a = .edit ∨ a = .admin) ∧
    (∀ a b : Access, a.level ≤ b.level ↔ a ≤ b) ∧
    (∀ a b : Access, a.compareTo b = 0 ↔ a = b) ∧
    (∀ a b : Access, a.compareTo b = -1 ↔ a < b) ∧
    (∀ a b : Access, a.compareTo b = 1 ↔ b < a) ∧
    (∀ a b : Access, a.atLeast b = true ↔ b ≤ a) := by
  refine ⟨?_, ?_, ?_, ?_, ?_, ?_, ?_, ?_, ?_, ?_⟩ <;> intro a <;>
    first
    | (intro b; cases a <;> cases b <;> decide)
    | (cases a <;> decide)

/-- **C48 (names)**: parsing accepts exactly the strings whose lower-case form is one of the four
names, and, provided lower-casing maps the displayed names to the lower-case names, displaying and
parsing are inverse. -/
theorem C48_names (lower : String → String) :
    (∀ s a, Access.tryFromString lower s = some a ↔ lower s = a.name) ∧
    ((∀ a : Access, lower a.display = a.name) →
      ∀ a : Access, Access.tryFromString lower a.display = some a) := by
  have h : ∀ s a, Access.tryFromString lower s = some a ↔ lower s = a.name := by
    intro s a
    unfold Access.tryFromString
    generalize lower s = t
    unfold Access.ofLower
    constructor
    · intro h
      repeat' split at h
      all_goals first
        | (simp only [Option.some.injEq] at h; subst h; assumption)
        | simp at h
    · intro h
      subst h
      cases a <;> decide
  exact ⟨h, fun hl a => (h _ a).2 (hl a)⟩

/-- Non-vacuity: the real lower-casing meets the hypothesis of `C48_names`. -/
example : ∃ lower : String → String, ∀ a : Access, lower a.display = a.name :=
  ⟨fun s => if s = "Relay" then "relay" else if s = "Read" then "read"
    else if s = "Edit" then "edit" else "admin", by intro a; cases a <;> decide⟩

/-! ## C49 — content-addressed maps -/

namespace CaMap
variable {D V : Type} [DecidableEq D] (hash : V → D)

/-- Mutating calls on a content-addressed map. -/
inductive Call (D V : Type) where
  | insert (v : V)
  | removeHash (d : D)
  | removeValue (v : V)
  | merge (vs : List V)

/-- Effect of one call; the map merged in is one built from values. -/
def call (m : CaMap D V) : Call D V → CaMap D V
  | .insert v => (insert hash m v).1
  | .removeHash d => (removeByHash m d).1
  | .removeValue v => (removeByValue hash m v).1
  | .merge vs => merge m (fromIter hash vs)

/-- Specification: the abstract effect of a call on the set of stored values. -/
def specCall (s : V → Prop) : Call D V → V → Prop
  | .insert v => fun x => x = v ∨ s x
  | .removeHash d => fun x => s x ∧ hash x ≠ d
  | .removeValue v => fun x => s x ∧ x ≠ v
  | .merge vs => fun x => s x ∨ x ∈ vs

/-- A map represents a set of values: each value is stored under its own digest. -/
def Represents (m : CaMap D V) (s : V → Prop) : Prop :=
  AMap.WF m ∧ ∀ d v, AMap.get m d = some v ↔ s v ∧ hash v = d

theorem get_merge (m o : CaMap D V) (ho : AMap.WF o) (d : D) :
    AMap.get (merge m o) d = (AMap.get m d).orElse (fun _ => AMap.get o d) := by
  unfold merge
  induction o generalizing m with
  | nil => simp
  | cons p o ih =>
    obtain ⟨k, v⟩ := p
    unfold AMap.WF AMap.keys at ho
    rw [List.map_cons, List.nodup_cons] at ho
    rw [List.foldl_cons, ih _ ho.2, AMap.get_orInsert, AMap.get_cons]
    by_cases hk : d = k
    · subst hk
      cases hm : AMap.get m d <;> simp
    · simp [hk, Ne.symm hk]

theorem wf_merge (m o : CaMap D V) (hm : AMap.WF m) : AMap.WF (merge m o) := by
  unfold merge
  induction o generalizing m with
  | nil => exact hm
  | cons p o ih => exact ih _ (AMap.wf_orInsert hm _ _)

theorem represents_insert (hinj : Function.Injective hash) {m : CaMap D V} {s : V → Prop}
    (h : Represents hash m s) (v : V) :
    Represents hash (AMap.insert m (hash v) v) (fun x => x = v ∨ s x) := by
  refine ⟨AMap.wf_insert h.1 _ _, ?_⟩
  intro d x
  rw [AMap.get_insert]
  by_cases hd : d = hash v
  · subst hd
    simp only [if_true, Option.some.injEq]
    constructor
    · rintro rfl; exact ⟨Or.inl rfl, rfl⟩
    · rintro ⟨_, he⟩; exact (hinj he).symm
  · rw [if_neg hd, h.2]
    constructor
    · rintro ⟨h1, h2⟩; exact ⟨Or.inr h1, h2⟩
    · rintro ⟨h1 | h1, h2⟩
      · exact absurd h2.symm (by rw [h1]; exact hd)
      · exact ⟨h1, h2⟩

theorem represents_fold (hinj : Function.Injective hash) (vs : List V) {m : CaMap D V}
    {s : V → Prop} (h : Represents hash m s) :
    Represents hash (vs.foldl (fun acc v => AMap.insert acc (hash v) v) m)
      (fun x => s x ∨ x ∈ vs) := by
  induction vs generalizing m s with
  | nil => simpa using h
  | cons v vs ih =>
    have := ih (represents_insert hash hinj h v)
    rw [List.foldl_cons]
    have e : (fun x => (x = v ∨ s x) ∨ x ∈ vs) = (fun x => s x ∨ x ∈ v :: vs) := by
      funext x
      simp only [List.mem_cons, eq_iff_iff]
      constructor
      · rintro ((h | h) | h)
        · exact Or.inr (Or.inl h)
        · exact Or.inl h
        · exact Or.inr (Or.inr h)
      · rintro (h | h | h)
        · exact Or.inl (Or.inr h)
        · exact Or.inl (Or.inl h)
        · exact Or.inr h
    rwa [e] at this

theorem represents_nil : Represents hash ([] : CaMap D V) (fun _ => False) :=
  ⟨AMap.wf_nil, by simp⟩

theorem represents_fromIter (hinj : Function.Injective hash) (vs : List V) :
    Represents hash (fromIter hash vs) (fun x => x ∈ vs) := by
  have := represents_fold hash hinj vs (represents_nil hash)
  simpa [fromIter] using this

theorem represents_call (hinj : Function.Injective hash) {m : CaMap D V} {s : V → Prop}
    (h : Represents hash m s) (c : Call D V) :
    Represents hash (call hash m c) (specCall hash s c) := by
  cases c with
  | insert v => exact represents_insert hash hinj h v
  | removeHash d =>
    refine ⟨AMap.wf_erase h.1 d, ?_⟩
    intro d' x
    simp only [call, removeByHash, AMap.get_erase, specCall]
    by_cases hd : d' = d
    · subst hd
      simp
    · rw [if_neg hd, h.2]
      constructor
      · rintro ⟨h1, h2⟩; exact ⟨⟨h1, by rw [h2]; exact hd⟩, h2⟩
      · rintro ⟨⟨h1, _⟩, h2⟩; exact ⟨h1, h2⟩
  | removeValue v =>
    refine ⟨AMap.wf_erase h.1 _, ?_⟩
    intro d' x
    simp only [call, removeByValue, removeByHash, AMap.get_erase, specCall]
    by_cases hd : d' = hash v
    · subst hd
      simp only [if_true]
      constructor
      · intro h; simp at h
      · rintro ⟨⟨_, h1⟩, h2⟩; exact absurd (hinj h2) h1
    · rw [if_neg hd, h.2]
      constructor
      · rintro ⟨h1, h2⟩
        refine ⟨⟨h1, ?_⟩, h2⟩
        rintro rfl
        exact hd h2.symm
      · rintro ⟨⟨h1, _⟩, h2⟩; exact ⟨h1, h2⟩
  | merge vs =>
    have hv := represents_fromIter hash hinj vs
    refine ⟨wf_merge _ _ h.1, ?_⟩
    intro d x
    simp only [call, specCall]
    rw [get_merge _ _ hv.1]
    cases hm : AMap.get m d with
    | none =>
      simp only [Option.orElse_none, hv.2]
      constructor
      · rintro ⟨h1, h2⟩; exact ⟨Or.inr h1, h2⟩
      · rintro ⟨h1 | h1, h2⟩
        · have := (h.2 d x).2 ⟨h1, h2⟩
          rw [hm] at this; simp at this
        · exact ⟨h1, h2⟩
    | some y =>
      have hy := (h.2 d y).1 hm
      simp only [Option.orElse_some, Option.some.injEq]
      constructor
      · rintro rfl; exact ⟨Or.inl hy.1, hy.2⟩
      · rintro ⟨_, h2⟩; exact hinj (hy.2.trans h2.symm)

/-- **C49 (set semantics)**: after any sequence of inserts, removals and merges, starting from the
empty map, looking up a digest returns a value exactly when that value has been put in and not
taken out since, and the digest is its hash. Assumes a collision-free hash. -/
theorem C49_set_semantics (hinj : Function.Injective hash) (cs : List (Call D V)) (d : D) (v : V) :
    AMap.get (cs.foldl (call hash) (new : CaMap D V)) d = some v ↔
      (cs.foldl (specCall hash) (fun _ => False)) v ∧ hash v = d := by
  have : ∀ (m : CaMap D V) s, Represents hash m s →
      Represents hash (cs.foldl (call hash) m) (cs.foldl (specCall hash) s) := by
    induction cs with
    | nil => intro m s h; exact h
    | cons c cs ih => intro m s h; exact ih _ _ (represents_call hash hinj h c)
  exact (this _ _ (represents_nil hash)).2 d v

/-- **C49 (content addressing, no collision-freedom needed)**: whatever calls are made, every entry
is stored under the hash of its value. -/
theorem C49_keys_are_hashes (cs : List (Call D V)) (d : D) (v : V)
    (h : AMap.get (cs.foldl (call hash) (new : CaMap D V)) d = some v) : hash v = d := by
  suffices H : ∀ (m : CaMap D V), (∀ p ∈ m, hash p.2 = p.1) →
      ∀ p ∈ cs.foldl (call hash) m, hash p.2 = p.1 from
    H [] (by simp) _ (AMap.mem_of_get h)
  clear h
  have hins : ∀ (m : CaMap D V) v, (∀ p ∈ m, hash p.2 = p.1) →
      ∀ p ∈ AMap.insert m (hash v) v, hash p.2 = p.1 := by
    intro m v hm p hp
    rcases List.mem_cons.1 hp with rfl | hp
    · rfl
    · exact hm p (List.mem_filter.1 hp).1
  induction cs with
  | nil => intro m hm; exact hm
  | cons c cs ih =>
    intro m hm
    rw [List.foldl_cons]
    apply ih
    cases c with
    | insert v => exact hins m v hm
    | removeHash d => intro p hp; exact hm p (List.mem_filter.1 hp).1
    | removeValue d => intro p hp; exact hm p (List.mem_filter.1 hp).1
    | merge vs =>
      have hf : ∀ p ∈ fromIter hash vs, hash p.2 = p.1 := by
        unfold fromIter
        suffices ∀ (m : CaMap D V), (∀ p ∈ m, hash p.2 = p.1) →
          ∀ p ∈ vs.foldl (fun acc v => AMap.insert acc (hash v) v) m, hash p.2 = p.1 from
          this [] (by simp)
        induction vs with
        | nil => intro m hm; exact hm
        | cons v vs ihv => intro m hm; exact ihv _ (hins m v hm)
      simp only [call, merge]
      generalize fromIter hash vs = o at hf
      clear ih
      induction o generalizing m with
      | nil => exact hm
      | cons q o iho =>
        rw [List.foldl_cons]
        apply iho
        · intro p hp
          unfold AMap.orInsert at hp
          split at hp
          · exact hm p hp
          · rcases List.mem_cons.1 hp with rfl | hp
            · exact hf q (by simp)
            · exact hm p hp
        · intro p hp; exact hf p (by simp [hp])

/-- **C49 (insertion reports novelty)**: `insert_checked` reports `true` exactly when the value was
not stored before. -/
theorem C49_insert_checked (m : CaMap D V) (v : V) :
    (insertChecked hash m v).2.2 = true ↔ containsValue hash m v = false := by
  simp [insertChecked, containsValue, AMap.contains]

/-- **C49 (merge laws)**: merging maps built from any values is commutative, associative and
idempotent, and keeps every entry of both (as observed by lookup). -/
theorem C49_merge_laws (hinj : Function.Injective hash) (xs ys zs : List V) (d : D) :
    let A := fromIter hash xs; let B := fromIter hash ys; let C := fromIter hash zs
    AMap.get (merge A B) d = AMap.get (merge B A) d ∧
    AMap.get (merge (merge A B) C) d = AMap.get (merge A (merge B C)) d ∧
    AMap.get (merge A A) d = AMap.get A d ∧
    (∀ v, AMap.get (merge A B) d = some v ↔ AMap.get A d = some v ∨ AMap.get B d = some v) := by
  intro A B C
  have hA : Represents hash A _ := represents_fromIter hash hinj xs
  have hB : Represents hash B _ := represents_fromIter hash hinj ys
  have hC : Represents hash C _ := represents_fromIter hash hinj zs
  have hBC : AMap.WF (merge B C) := wf_merge _ _ hB.1
  have uniq : ∀ x y, AMap.get A d = some x → AMap.get B d = some y → x = y := by
    intro x y hx hy
    exact hinj (((hA.2 _ _).1 hx).2.trans ((hB.2 _ _).1 hy).2.symm)
  refine ⟨?_, ?_, ?_, ?_⟩
  · rw [get_merge _ _ hB.1, get_merge _ _ hA.1]
    cases ha : AMap.get A d <;> cases hb : AMap.get B d <;> simp
    exact uniq _ _ ha hb
  · rw [get_merge _ _ hC.1, get_merge _ _ hB.1, get_merge _ _ hBC, get_merge _ _ hC.1]
    cases AMap.get A d <;> simp
  · rw [get_merge _ _ hA.1]
    cases AMap.get A d <;> simp
  · intro v
    rw [get_merge _ _ hB.1]
    cases ha : AMap.get A d with
    | none => simp
    | some a =>
      simp only [Option.orElse_some, Option.some.injEq]
      constructor
      · exact Or.inl
      · rintro (h | h)
        · exact h
        · exact uniq _ _ ha h

/-- Non-vacuity: with the identity as (collision-free) hash, a removed value is gone and a merged
one is present. -/
example : AMap.get ([Call.insert 1, .merge [2, 3], .removeValue 1].foldl (call (fun n : Nat => n))
    (new : CaMap Nat Nat)) 3 = some 3 := by decide

end CaMap

/-! ## C50 — transactions -/

namespace Transact

/-- **C50 (failure)**: a failing transaction leaves the trunk unchanged, for every mergeable type
and every body. -/
theorem C50_failure_atomic {T F E : Type} (M : Mergeable T F) (trunk : T) (tx : F → Except E F)
    (e : E) (h : tx (M.fork trunk) = .error e) : transactBlocking M trunk tx = (trunk, some e) := by
  simp [transactBlocking, h]

/-- **C50 (success on sets)**: the trunk afterwards holds exactly what it held before plus what the
fork holds at the end. -/
theorem C50_set_success {A E : Type} [DecidableEq A] (trunk forked : List A)
    (tx : List A → Except E (List A)) (h : tx trunk = .ok forked) (x : A) :
    x ∈ (transactBlocking (setMergeable A) trunk tx).1 ↔ x ∈ trunk ∨ x ∈ forked := by
  simp [transactBlocking, setMergeable, h, mem_sextend]

/-- **C50 (success on maps)**: keys of both sides are present; the trunk's value wins on keys it
already had. -/
theorem C50_map_success {K V E : Type} [DecidableEq K] (trunk forked : AMap K V)
    (tx : AMap K V → Except E (AMap K V)) (hwf : AMap.WF forked) (h : tx trunk = .ok forked) (k : K) :
    AMap.get (transactBlocking (mapMergeable K V) trunk tx).1 k =
      (AMap.get trunk k).orElse (fun _ => AMap.get forked k) := by
  simp only [transactBlocking, mapMergeable, h]
  exact CaMap.get_merge trunk forked hwf k

/-- The contents with which transactions commit, in a schedule starting from state `s`. -/
def commits {A : Type} [DecidableEq A] (s : Sched (List A) (List A)) :
    List (Step (List A)) → List (List A)
  | [] => []
  | st :: l =>
    (match st with
      | .begin _ => []
      | .finish i body => ((AMap.get s.open_ i).bind body).toList) ++
    commits (s.step (setMergeable A) st) l

/-- **C50 (every interleaving)**: run any number of asynchronous transactions on a shared set, with
their fork and finish points interleaved arbitrarily. The trunk at the end holds exactly the
initial elements and the elements of the forks that were committed; aborted transactions leave no
trace and no committed element is lost. -/
theorem C50_interleaving {A : Type} [DecidableEq A] (s : Sched (List A) (List A))
    (l : List (Step (List A))) (x : A) :
    x ∈ (s.run (setMergeable A) l).trunk ↔ x ∈ s.trunk ∨ ∃ f ∈ commits s l, x ∈ f := by
  induction l generalizing s with
  | nil => simp [Sched.run, commits]
  | cons st l ih =>
    have := ih (s.step (setMergeable A) st)
    unfold Sched.run at this ⊢
    rw [List.foldl_cons, this]
    cases st with
    | begin i => simp [Sched.step, commits]
    | finish i body =>
      cases ho : AMap.get s.open_ i with
      | none => simp [Sched.step, commits, ho]
      | some f =>
        cases hb : body f with
        | none => simp [Sched.step, commits, ho, hb]
        | some f' =>
          simp only [Sched.step, ho, hb, setMergeable, mem_sextend, commits, Option.bind_some,
            Option.toList_some, List.singleton_append, List.mem_cons, exists_eq_or_imp, or_assoc]

/-- Non-vacuity: two overlapping transactions, one of which aborts. -/
example : ((Sched.mk [0] [] : Sched (List Nat) (List Nat)).run (setMergeable Nat)
    [.begin 1, .begin 2, .finish 1 (fun f => some (7 :: f)), .finish 2 (fun _ => none)]).trunk
    = [7, 0] := by decide

end Transact

/-! ## C51 — the revocation index -/

namespace RevocationStore
variable {D A R G : Type} [DecidableEq D] [DecidableEq A] [DecidableEq G]
  (hash : R → D) (agent : R → A) (sig : R → G)

theorem mem_sigInsert (hsig : Function.Injective sig) (l : List R) (r x : R) :
    x ∈ sigInsert sig l r ↔ x = r ∨ x ∈ l := by
  unfold sigInsert
  split
  · rename_i h
    rw [List.any_eq_true] at h
    obtain ⟨y, hy, he⟩ := h
    have := hsig (of_decide_eq_true he)
    subst this
    constructor
    · exact Or.inr
    · rintro (rfl | h)
      · exact hy
      · exact h
  · simp

theorem mem_sigRemove (hsig : Function.Injective sig) (l : List R) (r x : R) :
    x ∈ sigRemove sig l r ↔ x ∈ l ∧ x ≠ r := by
  unfold sigRemove
  simp only [List.mem_filter, decide_eq_true_eq, and_congr_right_iff]
  intro _
  exact ⟨fun h e => h (by rw [e]), fun h e => h (hsig e)⟩

/-- Invariant: the index lists, for each agent, exactly the stored revocations affecting it, and
has no empty entries. -/
def Inv (s : RevocationStore D A R) : Prop :=
  (∀ d r, AMap.get s.revocations d = some r → hash r = d) ∧
  (∀ a l, AMap.get s.agentTo a = some l → l ≠ []) ∧
  (∀ a r, (∃ l, AMap.get s.agentTo a = some l ∧ r ∈ l) ↔
    AMap.get s.revocations (hash r) = some r ∧ agent r = a)

theorem inv_insert (hhash : Function.Injective hash) (hsig : Function.Injective sig)
    {s : RevocationStore D A R} (h : Inv hash agent s) (r : R) :
    Inv hash agent (insert hash agent sig s r) := by
  obtain ⟨h1, h2, h3⟩ := h
  refine ⟨?_, ?_, ?_⟩
  · intro d x
    simp only [insert, CaMap.insert, AMap.get_insert]
    split
    · rename_i hd; intro hx; simp only [Option.some.injEq] at hx; rw [hd, hx]
    · exact h1 d x
  · intro a l
    simp only [insert, AMap.get_insert]
    split
    · intro hl
      simp only [Option.some.injEq] at hl
      subst hl
      intro he
      have : r ∈ sigInsert sig ((AMap.get s.agentTo (agent r)).getD []) r :=
        (mem_sigInsert sig hsig _ _ _).2 (Or.inl rfl)
      rw [he] at this
      simp at this
    · exact h2 a l
  · intro a x
    simp only [insert, CaMap.insert, AMap.get_insert]
    have hget : (if hash x = hash r then some r else AMap.get s.revocations (hash x)) = some x ↔
        x = r ∨ AMap.get s.revocations (hash x) = some x := by
      by_cases hx : x = r
      · subst hx; simp
      · rw [if_neg (fun e => hx (hhash e))]; simp [hx]
    rw [hget]
    by_cases ha : a = agent r
    · subst ha
      simp only [if_true, Option.some.injEq, exists_eq_left', mem_sigInsert sig hsig]
      have hcur : x ∈ (AMap.get s.agentTo (agent r)).getD [] ↔
          ∃ l, AMap.get s.agentTo (agent r) = some l ∧ x ∈ l := by
        cases AMap.get s.agentTo (agent r) <;> simp
      rw [hcur, h3]
      constructor
      · rintro (rfl | ⟨h, h'⟩)
        · exact ⟨Or.inl rfl, rfl⟩
        · exact ⟨Or.inr h, h'⟩
      · rintro ⟨rfl | h, h'⟩
        · exact Or.inl rfl
        · exact Or.inr ⟨h, h'⟩
    · simp only [if_neg ha, h3]
      constructor
      · rintro ⟨h, h'⟩; exact ⟨Or.inr h, h'⟩
      · rintro ⟨rfl | h, h'⟩
        · exact absurd h'.symm ha
        · exact ⟨h, h'⟩

theorem inv_remove (hhash : Function.Injective hash) (hsig : Function.Injective sig)
    {s : RevocationStore D A R} (h : Inv hash agent s) (d : D) :
    Inv hash agent (removeByHash agent sig s d).1 := by
  obtain ⟨h1, h2, h3⟩ := h
  unfold removeByHash CaMap.removeByHash
  cases hd : AMap.get s.revocations d with
  | none =>
    have hsame : ∀ x, AMap.get (AMap.erase s.revocations d) x = AMap.get s.revocations x := by
      intro x
      rw [AMap.get_erase]
      split
      · rename_i he; rw [he, hd]
      · rfl
    refine ⟨?_, h2, ?_⟩
    · intro x r; simp only [hsame]; exact h1 x r
    · intro a r; simp only [hsame]; exact h3 a r
  | some r =>
    have hr : hash r = d := h1 d r hd
    subst hr
    have hin : ∃ l, AMap.get s.agentTo (agent r) = some l ∧ r ∈ l := (h3 _ _).2 ⟨hd, rfl⟩
    obtain ⟨l, hl, hrl⟩ := hin
    have hrev : ∀ x, AMap.get (AMap.erase s.revocations (hash r)) (hash x) = some x ↔
        AMap.get s.revocations (hash x) = some x ∧ x ≠ r := by
      intro x
      rw [AMap.get_erase]
      by_cases hx : x = r
      · subst hx; simp
      · rw [if_neg (fun e => hx (hhash e))]; simp [hx]
    have hc1 : ∀ d' x, AMap.get (AMap.erase s.revocations (hash r)) d' = some x → hash x = d' := by
      intro d' x
      rw [AMap.get_erase]
      split
      · simp
      · exact h1 d' x
    simp only [hl]
    split
    · rename_i hempty
      refine ⟨hc1, ?_, ?_⟩
      · intro a l'
        simp only [AMap.get_erase]
        split
        · simp
        · exact h2 a l'
      · intro a x
        rw [hrev]
        simp only [AMap.get_erase]
        by_cases ha : a = agent r
        · subst ha
          simp only [if_true]
          constructor
          · rintro ⟨l', h, _⟩; simp at h
          · rintro ⟨⟨hx, hne⟩, hag⟩
            exfalso
            obtain ⟨l', hl', hxl⟩ := (h3 (agent r) x).2 ⟨hx, hag⟩
            rw [hl] at hl'
            simp only [Option.some.injEq] at hl'
            subst hl'
            have : x ∈ sigRemove sig l r := (mem_sigRemove sig hsig _ _ _).2 ⟨hxl, hne⟩
            rw [List.isEmpty_iff] at hempty
            rw [hempty] at this
            simp at this
        · simp only [if_neg ha, h3]
          constructor
          · rintro ⟨hx, hag⟩
            refine ⟨⟨hx, ?_⟩, hag⟩
            rintro rfl
            exact ha hag.symm
          · rintro ⟨⟨hx, _⟩, hag⟩; exact ⟨hx, hag⟩
    · rename_i hne
      refine ⟨hc1, ?_, ?_⟩
      · intro a l'
        simp only [AMap.get_insert]
        split
        · intro he
          simp only [Option.some.injEq] at he
          subst he
          intro h0
          rw [h0] at hne
          exact hne rfl
        · exact h2 a l'
      · intro a x
        simp only [AMap.get_insert, hrev]
        by_cases ha : a = agent r
        · subst ha
          simp only [if_true, Option.some.injEq, exists_eq_left', mem_sigRemove sig hsig]
          constructor
          · rintro ⟨hx, hxr⟩
            have := (h3 (agent r) x).1 ⟨l, hl, hx⟩
            exact ⟨⟨this.1, hxr⟩, this.2⟩
          · rintro ⟨⟨hx, hxr⟩, hag⟩
            obtain ⟨l', hl', hxl⟩ := (h3 (agent r) x).2 ⟨hx, hag⟩
            rw [hl] at hl'
            simp only [Option.some.injEq] at hl'
            subst hl'
            exact ⟨hxl, hxr⟩
        · simp only [if_neg ha, h3]
          constructor
          · rintro ⟨hx, hag⟩
            refine ⟨⟨hx, ?_⟩, hag⟩
            rintro rfl
            exact ha hag.symm
          · rintro ⟨⟨hx, _⟩, hag⟩; exact ⟨hx, hag⟩

/-- **C51**: after any sequence of insertions and removals, the revocations listed for an agent are
exactly the stored revocations whose revoked delegation was granted to that agent. Assumes distinct
revocations have distinct digests and distinct (issuer, signature) pairs. -/
theorem C51_index (hhash : Function.Injective hash) (hsig : Function.Injective sig)
    (ops : List (Op D R)) (a : A) (r : R) :
    let s := run hash agent sig (new : RevocationStore D A R) ops
    (∃ l, getForAgent s a = some l ∧ r ∈ l) ↔
      (AMap.get s.revocations (hash r) = some r ∧ agent r = a) := by
  intro s
  have : Inv hash agent s := by
    have base : Inv hash agent (new : RevocationStore D A R) := by
      refine ⟨?_, ?_, ?_⟩ <;> simp [new]
    have step : ∀ (s : RevocationStore D A R), Inv hash agent s →
        Inv hash agent (run hash agent sig s ops) := by
      induction ops with
      | nil => intro s h; exact h
      | cons o ops ih =>
        intro s h
        apply ih
        cases o with
        | insert r => exact inv_insert hash agent sig hhash hsig h r
        | remove d => exact inv_remove hash agent sig hhash hsig h d
    exact step _ base
  exact this.2.2 a r

/-- **C51 (what is stored)**: the stored revocations after a sequence of calls are those inserted
and not removed since. -/
theorem C51_stored (hhash : Function.Injective hash) (ops : List (Op D R)) (r : R) :
    AMap.get (run hash agent sig (new : RevocationStore D A R) ops).revocations (hash r) = some r ↔
      ops.foldl (fun (s : R → Prop) o => match o with
        | .insert x => fun y => y = x ∨ s y
        | .remove d => fun y => s y ∧ hash y ≠ d) (fun _ => False) r := by
  have h1 : ∀ (s : RevocationStore D A R),
      (run hash agent sig s ops).revocations =
        (ops.map (fun o => match o with
          | .insert x => CaMap.Call.insert x
          | .remove d => CaMap.Call.removeHash d)).foldl (CaMap.call hash) s.revocations := by
    induction ops with
    | nil => intro s; rfl
    | cons o ops ih =>
      intro s
      unfold run
      rw [List.foldl_cons]
      have := ih (step hash agent sig s o)
      unfold run at this
      rw [this, List.map_cons, List.foldl_cons]
      congr 1
      cases o with
      | insert x => rfl
      | remove d =>
        simp only [step, removeByHash, CaMap.removeByHash, CaMap.call]
        cases AMap.get s.revocations d with
        | none => rfl
        | some x =>
          dsimp only
          cases AMap.get s.agentTo (agent x) with
          | none => rfl
          | some l =>
            dsimp only
            by_cases hc : (sigRemove sig l x).isEmpty = true
            · rw [if_pos hc]
            · rw [if_neg hc]
  rw [h1]
  have h2 := CaMap.C49_set_semantics hash hhash (ops.map (fun o => match o with
          | .insert x => CaMap.Call.insert x
          | .remove d => CaMap.Call.removeHash d)) (hash r) r
  have h3 : ∀ s : R → Prop, (ops.map (fun o => match o with
          | .insert x => CaMap.Call.insert x
          | .remove d => CaMap.Call.removeHash d)).foldl (CaMap.specCall hash) s =
      ops.foldl (fun (s : R → Prop) o => match o with
        | .insert x => fun y => y = x ∨ s y
        | .remove d => fun y => s y ∧ hash y ≠ d) s := by
    clear h1 h2
    induction ops with
    | nil => intro s; rfl
    | cons o ops ih =>
      intro s
      rw [List.map_cons, List.foldl_cons, List.foldl_cons, ih]
      cases o <;> rfl
  rw [h3] at h2
  simpa [CaMap.new, new] using h2

/-- Non-vacuity: three revocations, two for agent 0, one of which is removed again. -/
example : getForAgent (run (fun n : Nat => n) (fun n => n % 2) (fun n => n)
    (new : RevocationStore Nat Nat Nat) [.insert 2, .insert 3, .insert 4, .remove 2]) 0 = some [4] := by
  decide

end RevocationStore

/-! ## C55 — queue listeners -/

namespace Listener

/-- The events pushed by a sequence of calls. -/
def pushed {E : Type} (cs : List (Call E)) : List E :=
  cs.filterMap (fun c => match c with | .push e => some e | _ => none)

/-- **C55 (exactly once)**: for every sequence of pushes and pops, the events handed out together
with those still queued are exactly the initial queue plus the events pushed, each as often as it
was pushed. -/
theorem C55_exactly_once {E : Type} (q : Deque E) (cs : List (Call E)) :
    ((q.run cs).2 ++ (q.run cs).1).Perm (q ++ pushed cs) := by
  induction cs generalizing q with
  | nil => simp [Deque.run, pushed]
  | cons c cs ih =>
    simp only [Deque.run]
    cases c with
    | push e =>
      simp only [Deque.call, Deque.push, Option.toList_none, List.nil_append, pushed,
        List.filterMap_cons_some]
      refine (ih (q ++ [e])).trans ?_
      simp [pushed]
    | popLatest =>
      cases q with
      | nil => simpa [Deque.call, Deque.popLatest, pushed] using ih []
      | cons e q =>
        simp only [Deque.call, Deque.popLatest, Option.toList_some, List.singleton_append, pushed,
          List.filterMap_cons_none, List.cons_append]
        exact List.Perm.cons _ (ih q)
    | popEarliest =>
      simp only [Deque.call, Deque.popEarliest, pushed, List.filterMap_cons_none]
      cases hq : q.getLast? with
      | none =>
        have : q = [] := by simpa using hq
        subst this
        simpa [pushed] using ih []
      | some e =>
        have hql : q = q.dropLast ++ [e] := by
          have hne : q ≠ [] := by rintro rfl; simp at hq
          rw [List.getLast?_eq_some_getLast hne] at hq
          simp only [Option.some.injEq] at hq
          rw [← hq]
          exact (List.dropLast_concat_getLast hne).symm
        simp only [Option.toList_some, List.singleton_append, List.cons_append]
        refine (List.Perm.cons e (ih q.dropLast)).trans ?_
        conv => rhs; rw [hql]
        rw [List.append_assoc, List.singleton_append]
        exact (List.perm_middle).symm

/-- **C55 refuted**: asking a queue for the *earliest* event returns the one pushed last, and asking
for the *latest* returns the one pushed first, whenever at least two events are queued. -/
theorem C55_names_swapped {E : Type} (first last : E) (mid : List E) :
    (Deque.popEarliest (first :: mid ++ [last])).2 = some last ∧
    (Deque.popLatest (first :: mid ++ [last])).2 = some first := by
  constructor
  · simp only [Deque.popEarliest, List.getLast?_append, List.getLast?_singleton, Option.some_or]
  · rfl

/-- **C55 (order, as implemented)**: draining with `pop_latest` hands the events out in the order
they were pushed. -/
theorem C55_fifo_by_popLatest_partial {E : Type} (q : Deque E) :
    q.run (List.replicate q.length .popLatest) = ([], q) := by
  induction q with
  | nil => rfl
  | cons e q ih => simp [List.replicate_succ, Deque.run, Deque.call, Deque.popLatest, ih]

/-- **C55 (order, as implemented)**: draining with `pop_earliest` hands the events out in reverse. -/
theorem C55_lifo_by_popEarliest_partial {E : Type} (q : Deque E) :
    q.run (List.replicate q.length .popEarliest) = ([], q.reverse) := by
  induction hn : q.length generalizing q with
  | zero =>
    have : q = [] := List.eq_nil_of_length_eq_zero hn
    subst this; rfl
  | succ n ih =>
    have hne : q ≠ [] := by rintro rfl; simp at hn
    obtain ⟨q', e, rfl⟩ : ∃ q' e, q = q' ++ [e] :=
      ⟨q.dropLast, q.getLast hne, (List.dropLast_concat_getLast hne).symm⟩
    have := ih q' (by simpa using hn)
    simp [List.replicate_succ, Deque.run, Deque.call, Deque.popEarliest, this]

/-- Popping from the log listener takes back the last push, and nothing from an empty log. -/
theorem C55_log_pop {E : Type} (l : Log E) (e : E) : (l.push e).pop = (l, some e) ∧ Log.pop ([] : Log E) = ([], none) := by
  simp [Log.push, Log.pop]

/-- The log listener keeps the whole history in order. -/
theorem C55_log_history {E : Type} (l : Log E) (es : List E) :
    es.foldl Log.push l = l ++ es := by
  induction es generalizing l with
  | nil => simp
  | cons e es ih => rw [List.foldl_cons, ih]; simp [Log.push]

end Listener

end Verif
