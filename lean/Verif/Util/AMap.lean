/-!
# Finite maps and sets as lists

The Rust code uses `HashMap`, `HashSet`, `BTreeMap`. They are modelled by association lists;
`get`, `insert`, `erase` have map semantics, and the list order stands for the (unspecified)
iteration order.
-/

namespace Verif

/-- A finite map (`HashMap<K, V>` / `BTreeMap<K, V>`). -/
abbrev AMap (K V : Type) := List (K × V)

namespace AMap

variable {K V : Type} [DecidableEq K]

/-- `map.get(k)`. -/
def get (m : AMap K V) (k : K) : Option V :=
  match m with
  | [] => none
  | (k', v) :: m => if k' = k then some v else get m k

/-- `map.remove(k)`. -/
def erase (m : AMap K V) (k : K) : AMap K V := m.filter (fun p => decide (p.1 ≠ k))

/-- `map.insert(k, v)`: overwrites. -/
def insert (m : AMap K V) (k : K) (v : V) : AMap K V := (k, v) :: erase m k

/-- `map.contains_key(k)`. -/
def contains (m : AMap K V) (k : K) : Bool := (get m k).isSome

/-- `map.entry(k).or_insert(v)`. -/
def orInsert (m : AMap K V) (k : K) (v : V) : AMap K V :=
  if contains m k then m else (k, v) :: m

/-- `map.keys()`. -/
def keys (m : AMap K V) : List K := m.map Prod.fst

/-- `map.values()`. -/
def values (m : AMap K V) : List V := m.map Prod.snd

/-- The representation invariant: no key occurs twice. -/
def WF (m : AMap K V) : Prop := (keys m).Nodup

@[simp] theorem get_nil (k : K) : get ([] : AMap K V) k = none := rfl

theorem get_cons (k' : K) (v : V) (m : AMap K V) (k : K) :
    get ((k', v) :: m) k = if k' = k then some v else get m k := rfl

theorem get_erase (m : AMap K V) (k j : K) :
    get (erase m k) j = if j = k then none else get m j := by
  induction m with
  | nil => simp [erase]
  | cons p m ih =>
    obtain ⟨k', v⟩ := p
    unfold erase at ih ⊢
    by_cases h : k' = k
    · subst h
      simp only [ne_eq, not_true_eq_false, decide_false, Bool.false_eq_true, not_false_eq_true,
        List.filter_cons_of_neg, ih, get_cons]
      by_cases hj : j = k' <;> simp [hj, eq_comm]
    · rw [List.filter_cons_of_pos (by simpa using h), get_cons, get_cons, ih]
      by_cases hj : j = k
      · subst hj; simp [h]
      · simp [hj]

theorem get_insert (m : AMap K V) (k j : K) (v : V) :
    get (insert m k v) j = if j = k then some v else get m j := by
  unfold insert
  rw [get_cons, get_erase]
  by_cases h : k = j
  · simp [h]
  · simp [h, Ne.symm h]

@[simp] theorem get_insert_self (m : AMap K V) (k : K) (v : V) : get (insert m k v) k = some v := by
  simp [get_insert]

theorem get_insert_ne (m : AMap K V) {k j : K} (v : V) (h : j ≠ k) :
    get (insert m k v) j = get m j := by
  simp [get_insert, h]

theorem get_orInsert (m : AMap K V) (k j : K) (v : V) :
    get (orInsert m k v) j = if j = k ∧ get m k = none then some v else get m j := by
  unfold orInsert contains
  by_cases h : get m k = none
  · simp only [h, Option.isSome_none, Bool.false_eq_true, if_false, get_cons, and_true]
    by_cases hj : k = j
    · simp [hj]
    · simp [hj, Ne.symm hj]
  · rw [if_pos (by simpa [Option.isSome_iff_ne_none] using h)]
    simp [h]

theorem mem_keys_iff (m : AMap K V) (k : K) : k ∈ keys m ↔ get m k ≠ none := by
  induction m with
  | nil => simp [keys]
  | cons p m ih =>
    obtain ⟨k', v⟩ := p
    rw [get_cons]
    unfold keys at ih ⊢
    rw [List.map_cons, List.mem_cons, ih]
    by_cases h : k' = k
    · simp [h]
    · simp [h, Ne.symm h]

theorem contains_iff (m : AMap K V) (k : K) : contains m k = true ↔ k ∈ keys m := by
  rw [mem_keys_iff, contains, Option.isSome_iff_ne_none]

theorem mem_of_get {m : AMap K V} {k : K} {v : V} (h : get m k = some v) : (k, v) ∈ m := by
  induction m with
  | nil => simp at h
  | cons p m ih =>
    obtain ⟨k', v'⟩ := p
    rw [get_cons] at h
    split at h
    · rename_i hk
      subst hk
      simp only [Option.some.injEq] at h
      simp [h]
    · exact List.mem_cons_of_mem _ (ih h)

theorem get_of_mem {m : AMap K V} (hwf : WF m) {k : K} {v : V} (h : (k, v) ∈ m) :
    get m k = some v := by
  induction m with
  | nil => simp at h
  | cons p m ih =>
    obtain ⟨k', v'⟩ := p
    unfold WF keys at hwf
    rw [List.map_cons, List.nodup_cons] at hwf
    rw [get_cons]
    rcases List.mem_cons.1 h with h | h
    · simp only [Prod.mk.injEq] at h
      simp [h.1, h.2]
    · have : k' ≠ k := by
        intro he
        apply hwf.1
        rw [he]
        exact List.mem_map.2 ⟨(k, v), h, rfl⟩
      rw [if_neg this]
      exact ih hwf.2 h

omit [DecidableEq K] in
theorem wf_nil : WF ([] : AMap K V) := List.nodup_nil

theorem wf_erase {m : AMap K V} (h : WF m) (k : K) : WF (erase m k) := by
  unfold WF keys erase
  exact h.sublist (List.Sublist.map _ List.filter_sublist)

theorem wf_insert {m : AMap K V} (h : WF m) (k : K) (v : V) : WF (insert m k v) := by
  unfold WF insert keys
  rw [List.map_cons, List.nodup_cons]
  refine ⟨?_, wf_erase h k⟩
  intro hmem
  have : k ∈ keys (erase m k) := hmem
  rw [mem_keys_iff, get_erase] at this
  simp at this

theorem wf_orInsert {m : AMap K V} (h : WF m) (k : K) (v : V) : WF (orInsert m k v) := by
  unfold orInsert
  split
  · exact h
  · rename_i hc
    unfold WF keys
    rw [List.map_cons, List.nodup_cons]
    refine ⟨?_, h⟩
    intro hmem
    exact hc ((contains_iff m k).2 hmem)

theorem wf_iff_get {m : AMap K V} (h : WF m) (k : K) (v : V) : (k, v) ∈ m ↔ get m k = some v :=
  ⟨get_of_mem h, mem_of_get⟩

end AMap

/-- A finite set (`HashSet<T>` / `BTreeSet<T>`): a list read up to membership.
`set.insert(x)`: no change if present. -/
def sinsert {T : Type} [DecidableEq T] (l : List T) (x : T) : List T :=
  if x ∈ l then l else x :: l

/-- `set.remove(x)`. -/
def sremove {T : Type} [DecidableEq T] (l : List T) (x : T) : List T :=
  l.filter (fun y => decide (y ≠ x))

/-- `set.extend(other)`. -/
def sextend {T : Type} [DecidableEq T] (l : List T) (o : List T) : List T :=
  o.foldl sinsert l

section
variable {T : Type} [DecidableEq T]

theorem mem_sinsert (l : List T) (x y : T) : y ∈ sinsert l x ↔ y = x ∨ y ∈ l := by
  unfold sinsert
  split
  · constructor
    · exact Or.inr
    · rintro (rfl | h) <;> assumption
  · simp

theorem mem_sremove (l : List T) (x y : T) : y ∈ sremove l x ↔ y ≠ x ∧ y ∈ l := by
  unfold sremove
  simp [and_comm]

theorem mem_sextend (l o : List T) (y : T) : y ∈ sextend l o ↔ y ∈ l ∨ y ∈ o := by
  unfold sextend
  induction o generalizing l with
  | nil => simp
  | cons a o ih =>
    rw [List.foldl_cons, ih, mem_sinsert, List.mem_cons]
    constructor
    · rintro ((h | h) | h)
      · exact Or.inr (Or.inl h)
      · exact Or.inl h
      · exact Or.inr (Or.inr h)
    · rintro (h | h | h)
      · exact Or.inl (Or.inr h)
      · exact Or.inl (Or.inl h)
      · exact Or.inr h

theorem nodup_sinsert {l : List T} (h : l.Nodup) (x : T) : (sinsert l x).Nodup := by
  unfold sinsert
  split
  · exact h
  · exact List.nodup_cons.2 ⟨by assumption, h⟩

theorem nodup_sremove {l : List T} (h : l.Nodup) (x : T) : (sremove l x).Nodup :=
  h.filter _

theorem nodup_sextend {l : List T} (h : l.Nodup) (o : List T) : (sextend l o).Nodup := by
  unfold sextend
  induction o generalizing l with
  | nil => exact h
  | cons a o ih => exact ih (nodup_sinsert h a)
end

end Verif
