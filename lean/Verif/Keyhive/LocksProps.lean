import Verif.Keyhive.Locks

/-! # C147 — calls that run at the same time do not wait for each other forever -/

namespace Verif.Keyhive.Locks

/-- Everybody has returned. -/
def Finished (ts : List Task) : Prop := ∀ t ∈ ts, t.left = []

/-- Somebody has not returned, and everybody who has not waits for a lock that is held. Nothing happens any more. -/
def Stuck (ts : List Task) : Prop := ¬ Finished ts ∧ ∀ t ∈ ts, canMove ts t = false

/-- `w` is met on a walk from `v` through the members. -/
inductive Meets (M : Nat → List Node) : Node → Node → Prop
  | refl (v) : Meets M v v
  | step {i w u} : w ∈ M i → Meets M w u → Meets M (.membered i) u

/-- No group or document is a member of one of its members, at whatever distance: each is on a level below those it is a member of. -/
structure Levels (M : Nat → List Node) (lev : Nat → Nat) (B : Nat) : Prop where
  below : ∀ v w, .membered w ∈ M v → lev v < lev w
  bound : ∀ v, lev v < B

/-- The calls that respect the levels, on a device on which documents are made (`docs`) or on one on which groups and prekeys are made. Of the calls modelled these are all but those of the other kind of device and these three: receiving a revocation for a group nobody knows; adding a member while naming other documents, unless they are below; and adding to a document somebody above it or, directly or through groups, the own agent. Who is revoked from a document is one of its members, as in the program. -/
def Respects (M : Nat → List Node) (lev : Nat → Nat) (docs : Bool) : Call → Prop
  | .addToDoc d delegate others _ =>
    (∀ o ∈ others, lev d < lev o) ∧ ¬ Meets M delegate .active ∧
      (∀ v, delegate = .membered v → lev d < lev v)
  | .addToGroup g _ others _ _ => ∀ o ∈ others, lev g < lev o
  | .revokeFromDoc d delegates _ => ∀ x ∈ delegates, x ∈ M d
  | .generateDoc _ => docs = true
  | .receiveRevUnknown => False
  | .generateGroup | .rotatePrekey | .expandPrekeys | .contactCard => docs = false
  | _ => True

/-- In what order locks may be taken. -/
def rank (docs : Bool) (lev : Nat → Nat) (B : Nat) : Lock → Nat
  | .active => if docs then 1 else 0
  | .csprng => if docs then 0 else 1
  | .groups => 2
  | .docs => 3
  | .membered i => 4 + lev i
  | .self | .pairs | .person _ => 4 + B

/-- From here on only locks above all that are held are taken, and all are freed in the end. -/
def Rises (r : Lock → Nat) : List Lock → List Act → Prop
  | held, [] => held = []
  | held, .take l :: as => (∀ h ∈ held, r h < r l) ∧ Rises r (l :: held) as
  | held, .free l :: as => Rises r (held.erase l) as

theorem exists_max (f : Task → Nat) : ∀ (ts : List Task) (P : Task → Prop), (∃ t ∈ ts, P t) →
    ∃ t ∈ ts, P t ∧ ∀ u ∈ ts, P u → f u ≤ f t := by
  intro ts P h
  induction ts with
  | nil => obtain ⟨t, ht, _⟩ := h; cases ht
  | cons a as ih =>
    by_cases has : ∃ t ∈ as, P t
    · obtain ⟨t, ht, hp, hm⟩ := ih has
      by_cases ha : P a ∧ f t < f a
      · refine ⟨a, by simp, ha.1, fun u hu hpu => ?_⟩
        rcases List.mem_cons.1 hu with rfl | hu
        · exact Nat.le_refl _
        · exact Nat.le_trans (hm u hu hpu) (Nat.le_of_lt ha.2)
      · refine ⟨t, by simp [ht], hp, fun u hu hpu => ?_⟩
        rcases List.mem_cons.1 hu with rfl | hu
        · by_cases hlt : f t < f u
          · exact absurd ⟨hpu, hlt⟩ ha
          · omega
        · exact hm u hu hpu
    · obtain ⟨t, ht, hp⟩ := h
      rcases List.mem_cons.1 ht with rfl | ht
      · refine ⟨t, by simp, hp, fun u hu hpu => ?_⟩
        rcases List.mem_cons.1 hu with rfl | hu
        · exact Nat.le_refl _
        · exact absurd ⟨u, hu, hpu⟩ has
      · exact absurd ⟨t, ht, hp⟩ has

/-- The rank of the lock a call takes next. -/
def wants (r : Lock → Nat) (t : Task) : Nat :=
  match t.left with
  | .take l :: _ => r l
  | _ => 0

theorem not_stuck (r : Lock → Nat) (ts : List Task) (h : ∀ t ∈ ts, Rises r t.held t.left) : ¬ Stuck ts := by
  rintro ⟨hn, hb⟩
  have hex : ∃ t ∈ ts, t.left ≠ [] := by
    apply Classical.byContradiction
    intro hc
    exact hn fun t ht => Classical.byContradiction fun hl => hc ⟨t, ht, hl⟩
  obtain ⟨t, ht, hl, hm⟩ := exists_max (wants r) ts (fun t => t.left ≠ []) hex
  have hbt := hb t ht
  unfold canMove at hbt
  cases hleft : t.left with
  | nil => exact hl hleft
  | cons a as =>
    cases a with
    | free l => simp [hleft] at hbt
    | take l =>
      simp only [hleft, isFree, List.all_eq_false] at hbt
      obtain ⟨u, hu, hheld⟩ := hbt
      have hheld : l ∈ u.held := by simpa using hheld
      have hru := h u hu
      cases hul : u.left with
      | nil => rw [hul] at hru; simp only [Rises] at hru; rw [hru] at hheld; cases hheld
      | cons b bs =>
        have hbu := hb u hu
        unfold canMove at hbu
        cases b with
        | free l' => simp [hul] at hbu
        | take l' =>
          rw [hul] at hru
          have hlt := hru.1 l hheld
          have := hm u hu (by simp [hul])
          simp only [wants, hul, hleft] at this
          omega

theorem move_rises (r : Lock → Nat) (t : Task) (h : Rises r t.held t.left) : Rises r t.move.held t.move.left := by
  unfold Task.move
  cases hl : t.left with
  | nil => dsimp only; rw [hl] at h ⊢; exact h
  | cons a as =>
    rw [hl] at h
    cases a with
    | take l => exact h.2
    | free l => exact h

theorem poll_rises (r : Lock → Nat) (ts : List Task) (i : Nat) (h : ∀ t ∈ ts, Rises r t.held t.left) :
    ∀ t ∈ poll ts i, Rises r t.held t.left := by
  unfold poll
  split
  · exact h
  · rename_i t hi
    split
    · intro u hu
      rcases List.mem_or_eq_of_mem_set hu with hu | rfl
      · exact h u hu
      · exact move_rises r t (h t (List.mem_of_getElem? hi))
    · exact h

theorem polls_rises (r : Lock → Nat) : ∀ (sched : List Nat) (ts : List Task), (∀ t ∈ ts, Rises r t.held t.left) →
    ∀ t ∈ polls ts sched, Rises r t.held t.left
  | [], _, h => h
  | i :: is, ts, h => polls_rises r is (poll ts i) (poll_rises r ts i h)

/-- How much there is still to do. -/
def todo (ts : List Task) : Nat := (ts.map (fun t => t.left.length)).sum

theorem todo_set : ∀ (ts : List Task) (i : Nat) (t : Task), ts[i]? = some t → t.left ≠ [] → todo (ts.set i t.move) < todo ts
  | [], _, _, h, _ => by simp at h
  | a :: as, 0, t, h, hl => by
    simp only [List.getElem?_cons_zero, Option.some.injEq] at h
    subst h
    simp only [List.set_cons_zero, todo, List.map_cons, List.sum_cons]
    have : a.move.left.length < a.left.length := by
      unfold Task.move
      cases hal : a.left with
      | nil => exact absurd hal hl
      | cons b bs => cases b <;> simp
    omega
  | a :: as, i + 1, t, h, hl => by
    simp only [List.getElem?_cons_succ] at h
    have := todo_set as i t h hl
    simp only [List.set_cons_succ, todo, List.map_cons, List.sum_cons] at this ⊢
    omega

theorem finishes (r : Lock → Nat) : ∀ (n : Nat) (ts : List Task), todo ts ≤ n → (∀ t ∈ ts, Rises r t.held t.left) →
    ∃ sched, Finished (polls ts sched) := by
  intro n
  induction n with
  | zero =>
    intro ts hn h
    refine ⟨[], ?_⟩
    intro t ht
    apply Classical.byContradiction
    intro hl
    obtain ⟨i, hi⟩ := List.getElem?_of_mem ht
    have := todo_set ts i t hi hl
    omega
  | succ n ih =>
    intro ts hn h
    by_cases hf : Finished ts
    · exact ⟨[], hf⟩
    · have hns := not_stuck r ts h
      have hex : ∃ t ∈ ts, canMove ts t = true := by
        apply Classical.byContradiction
        intro hc
        exact hns ⟨hf, fun t ht => by
          cases hm : canMove ts t with
          | false => rfl
          | true => exact absurd ⟨t, ht, hm⟩ hc⟩
      obtain ⟨t, ht, hm⟩ := hex
      obtain ⟨i, hi⟩ := List.getElem?_of_mem ht
      have hl : t.left ≠ [] := by
        intro hl
        simp [canMove, hl] at hm
      have hp : poll ts i = ts.set i t.move := by simp [poll, hi, hm]
      obtain ⟨sched, hs⟩ := ih (poll ts i) (by have := todo_set ts i t hi hl; rw [hp]; omega) (poll_rises r ts i h)
      exact ⟨i :: sched, hs⟩

/-! ## The calls -/

/-- A piece of a call that can be done while these locks are held. -/
def Fits (r : Lock → Nat) (held : List Lock) (as : List Act) : Prop :=
  ∀ rest, Rises r held rest → Rises r held (as ++ rest)

section
variable {r : Lock → Nat} {held : List Lock}

theorem fits_nil : Fits r held [] := fun _ h => h

theorem fits_app {as bs : List Act} (ha : Fits r held as) (hb : Fits r held bs) : Fits r held (as ++ bs) := by
  intro rest h
  rw [List.append_assoc]
  exact ha _ (hb _ h)

theorem fits_holding {l : Lock} {as : List Act} (hl : ∀ h ∈ held, r h < r l) (ha : Fits r (l :: held) as) :
    Fits r held (holding l as) := by
  intro rest h
  refine ⟨hl, ?_⟩
  show Rises r (l :: held) ((as ++ [.free l]) ++ rest)
  rw [List.append_assoc]
  refine ha _ ?_
  simp only [List.singleton_append, Rises, List.erase_cons_head]
  exact h

theorem fits_touch {l : Lock} (hl : ∀ h ∈ held, r h < r l) : Fits r held (touch l) :=
  fits_holding hl fits_nil

theorem fits_flatMap {α : Type} {f : α → List Act} {xs : List α} (h : ∀ x ∈ xs, Fits r held (f x)) :
    Fits r held (xs.flatMap f) := by
  induction xs with
  | nil => exact fits_nil
  | cons x xs ih =>
    rw [List.flatMap_cons]
    exact fits_app (h x (by simp)) (ih fun y hy => h y (by simp [hy]))

end

section
variable {M : Nat → List Node} {lev : Nat → Nat} {B : Nat} {b : Bool}

theorem fits_walk (hM : Levels M lev B) (held : List Lock) (root : Nat) : ∀ (n : Nat) (st : List Node),
    (∀ v, .membered v ∈ st → ∀ h ∈ held, rank b lev B h < 4 + lev v) → Fits (rank b lev B) held (walk M root n st)
  | 0, _, _ => by simp only [walk]; exact fits_nil
  | _ + 1, [], _ => by simp only [walk]; exact fits_nil
  | n + 1, .active :: st, h => by
    simp only [walk]; exact fits_walk hM held root n st fun v hv => h v (by simp [hv])
  | n + 1, .person i :: st, h => by
    simp only [walk]; exact fits_walk hM held root n st fun v hv => h v (by simp [hv])
  | n + 1, .membered v :: st, h => by
    simp only [walk]
    split
    · exact fits_walk hM held root n st fun v hv => h v (by simp [hv])
    · refine fits_app (fits_touch (h v (by simp))) (fits_walk hM held root n _ fun w hw => ?_)
      rcases List.mem_append.1 hw with hw | hw
      · intro l hl
        have := hM.below v w hw
        have := h v (by simp) l hl
        omega
      · exact h w (by simp [hw])

theorem fits_individuals (hM : Levels M lev B) (held : List Lock) : ∀ (n : Nat) (st : List Node),
    (∀ v, .membered v ∈ st → ∀ h ∈ held, rank b lev B h < 4 + lev v) → Fits (rank b lev B) held (individuals M n st)
  | 0, _, _ => by simp only [individuals]; exact fits_nil
  | _ + 1, [], _ => by simp only [individuals]; exact fits_nil
  | n + 1, .active :: st, h => by
    simp only [individuals]; exact fits_individuals hM held n st fun v hv => h v (by simp [hv])
  | n + 1, .person i :: st, h => by
    simp only [individuals]; exact fits_individuals hM held n st fun v hv => h v (by simp [hv])
  | n + 1, .membered v :: st, h => by
    simp only [individuals]
    refine fits_app (fits_touch (h v (by simp))) (fits_individuals hM held n _ fun w hw => ?_)
    rcases List.mem_append.1 hw with hw | hw
    · intro l hl
      have := hM.below v w hw
      have := h v (by simp) l hl
      omega
    · exact h w (by simp [hw])

theorem fits_prekeys (hM : Levels M lev B) (held : List Lock) (hB : ∀ h ∈ held, rank b lev B h < 4 + B) : ∀ (n : Nat) (st : List Node),
    (∀ v, .membered v ∈ st → ∀ h ∈ held, rank b lev B h < 4 + lev v) →
    ((∀ h ∈ held, rank b lev B h < rank b lev B .active) ∨ ∀ x ∈ st, ¬ Meets M x .active) → Fits (rank b lev B) held (prekeys M n st)
  | 0, _, _, _ => by simp only [prekeys]; exact fits_nil
  | _ + 1, [], _, _ => by simp only [prekeys]; exact fits_nil
  | n + 1, .active :: st, h, ha => by
    simp only [prekeys]
    rcases ha with ha | ha
    · refine fits_app (fits_holding ha (fits_touch fun l hl => ?_)) (fits_prekeys hM held hB n st (fun v hv => h v (by simp [hv])) (.inl ha))
      rcases List.mem_cons.1 hl with rfl | hl
      · cases b <;> simp [rank] <;> omega
      · exact hB l hl
    · exact absurd (Meets.refl _) (ha .active (by simp))
  | n + 1, .person i :: st, h, ha => by
    simp only [prekeys]
    refine fits_app (fits_touch hB) (fits_prekeys hM held hB n st (fun v hv => h v (by simp [hv])) ?_)
    exact ha.imp id fun ha x hx => ha x (by simp [hx])
  | n + 1, .membered v :: st, h, ha => by
    simp only [prekeys]
    refine fits_app (fits_touch (h v (by simp))) (fits_prekeys hM held hB n _ (fun w hw => ?_) ?_)
    · rcases List.mem_append.1 hw with hw | hw
      · intro l hl
        have := hM.below v w hw
        have := h v (by simp) l hl
        omega
      · exact h w (by simp [hw])
    · refine ha.imp id fun ha x hx hm => ?_
      rcases List.mem_append.1 hx with hx | hx
      · exact ha (.membered v) (by simp) (.step hx hm)
      · exact ha x (by simp [hx]) hm

theorem fits_list (hM : Levels M lev B) (held : List Lock) (n v : Nat) (h : ∀ l ∈ held, rank b lev B l < 4 + lev v) :
    Fits (rank b lev B) held (listMembers M n v) := by
  refine fits_holding h (fits_walk hM _ v n _ fun w hw l hl => ?_)
  have := hM.below v w hw
  rcases List.mem_cons.1 hl with rfl | hl
  · simp only [rank]; omega
  · have := h l hl
    omega

theorem fits_docs (hM : Levels M lev B) (held : List Lock) (n : Nat) (docs : List Nat) (h : ∀ l ∈ held, rank b lev B l < 3) :
    Fits (rank b lev B) held (docsReachable M n docs) := by
  refine fits_app (fits_touch h) (fits_flatMap fun d _ => fits_list hM held n d fun l hl => ?_)
  have := h l hl
  omega

theorem fits_indirectly (hM : Levels M lev B) (n v : Nat) (ind : Bool) :
    Fits (rank b lev B) [.membered v] (indirectly M n v ind) := by
  unfold indirectly
  split
  · refine fits_flatMap fun w hw => fits_list hM _ n w fun l hl => ?_
    simp only [memberedOf, List.mem_filterMap] at hw
    obtain ⟨x, hx, hxw⟩ := hw
    cases x <;> simp at hxw
    subst hxw
    have := hM.below v _ hx
    simp only [List.mem_singleton] at hl
    subst hl
    simp only [rank]
    omega
  · exact fits_nil

theorem fits_rotating (held : List Lock) (hc : ∀ l ∈ held, rank b lev B l < rank b lev B .csprng) (hB : ∀ l ∈ held, rank b lev B l < 4 + B) :
    Fits (rank b lev B) held rotating :=
  fits_app (fits_app (fits_touch hc) (fits_touch hB)) (fits_touch hB)

theorem fits_call (hM : Levels M lev B) (n : Nat) (c : Call) (hc : Respects M lev b c) :
    Fits (rank b lev B) [] (c.acts M n) := by
  have hno : ∀ l, ∀ h ∈ ([] : List Lock), rank b lev B h < l := by simp
  have hact : ∀ l ∈ [Lock.active], rank b lev B l < 3 := by cases b <;> simp [rank]
  cases c with
  | reachableMembers r => exact fits_list hM [] n r (hno _)
  | docsReachableBy docs => exact fits_docs hM [] n docs (hno _)
  | reachableDocs docs => exact fits_holding (hno _) (fits_docs hM _ n docs hact)
  | memberedReachableBy groups docs =>
    exact fits_app (fits_app (fits_touch (hno _)) (fits_flatMap fun g _ => fits_list hM [] n g (hno _))) (fits_docs hM [] n docs (hno _))
  | encrypt d =>
    refine fits_app (fits_touch (hno _)) (fits_holding (hno _) (fits_touch ?_))
    cases b <;> simp [rank] <;> omega
  | decrypt d => exact fits_touch (hno _)
  | receiveAddOfMe d =>
    refine fits_app (fits_touch (hno _)) (fits_holding (hno _) (fits_app (fits_touch ?_) (fits_touch ?_))) <;>
      · cases b <;> simp [rank] <;> omega
  | receiveOtherAdd d => exact fits_app (fits_app (fits_touch (hno _)) (fits_touch (hno _))) (fits_touch (hno _))
  | receiveKeyOp d => exact fits_app (fits_touch (hno _)) (fits_touch (hno _))
  | addToDoc d delegate others indirect =>
    obtain ⟨ho, ha, hd⟩ := hc
    refine fits_app (fits_touch (hno _)) (fits_holding (hno _) (fits_app (fits_app (fits_flatMap fun o h => fits_touch ?_) (fits_indirectly hM n d indirect)) ?_))
    · have := ho o h
      simp only [List.mem_singleton, forall_eq, rank]
      omega
    · refine fits_prekeys hM _ ?_ n _ (fun v hv => ?_) (.inr ?_)
      · have := hM.bound d
        simp only [List.mem_singleton, forall_eq, rank]
        omega
      · have := hd v (List.mem_singleton.1 hv).symm
        simp only [List.mem_singleton, forall_eq, rank]
        omega
      · simpa using ha
  | addToGroup g delegate others docs indirect =>
    refine fits_app (fits_app (fits_app (fits_touch (hno _)) (fits_holding (hno _) (fits_app (fits_flatMap fun o h => fits_touch ?_) (fits_indirectly hM n g indirect)))) (fits_touch (hno _))) (fits_flatMap fun d _ => ?_)
    · have := hc o h
      simp only [List.mem_singleton, forall_eq, rank]
      omega
    · exact fits_app (fits_app (fits_list hM [] n d (hno _)) (fits_prekeys hM [] (hno _) n _ (by simp) (.inl (hno _)))) (fits_touch (hno _))
  | revokeFromDoc d delegates docs =>
    refine fits_app (fits_app (fits_app (fits_holding (hno _) (fits_docs hM _ n docs hact)) (fits_flatMap fun d _ => fits_touch (hno _))) (fits_touch (hno _))) (fits_holding (hno _) (fits_app ?_ ?_))
    · refine fits_individuals hM _ n _ fun v hv => ?_
      have := hM.below d v (hc _ hv)
      simp only [List.mem_singleton, forall_eq, rank]
      omega
    · refine fits_individuals hM _ n _ fun v hv => ?_
      have := hM.below d v hv
      simp only [List.mem_singleton, forall_eq, rank]
      omega
  | revokeFromGroup g delegates docs =>
    refine fits_app (fits_app (fits_app (fits_app (fits_app (fits_app (fits_app (fits_holding (hno _) (fits_docs hM _ n docs hact)) (fits_flatMap fun d _ => fits_touch (hno _))) (fits_touch (hno _))) (fits_touch (hno _))) (fits_individuals hM [] n _ (by simp))) (fits_touch (hno _))) (fits_touch (hno _))) (fits_flatMap fun d _ => fits_app (fits_list hM [] n d (hno _)) (fits_touch (hno _)))
  | generateDoc coparents =>
    have hb : b = true := hc
    subst hb
    refine fits_app (fits_app (fits_app (fits_touch (hno _)) (fits_touch (hno _))) (fits_holding (hno _) (fits_app (fits_individuals hM _ n _ ?_) (fits_prekeys hM _ ?_ n _ ?_ (.inl ?_))))) (fits_touch (hno _))
    · intro v _; simp [rank]; omega
    · simp [rank]; omega
    · intro v _; simp [rank]; omega
    · simp [rank]
  | generateGroup =>
    have hb : b = false := hc
    subst hb
    exact fits_app (fits_holding (hno _) (fits_touch (by simp [rank]))) (fits_touch (hno _))
  | rotatePrekey =>
    have hb : b = false := hc
    subst hb
    exact fits_holding (hno _) (fits_rotating _ (by simp [rank]) (by simp [rank]; omega))
  | expandPrekeys =>
    have hb : b = false := hc
    subst hb
    refine fits_holding (hno _) (fits_app (fits_app (fits_touch ?_) (fits_touch ?_)) (fits_touch ?_)) <;> simp [rank] <;> omega
  | contactCard =>
    have hb : b = false := hc
    subst hb
    have hr := fits_rotating (lev := lev) (B := B) (b := false) [.active] (by simp [rank]) (by simp [rank]; omega)
    exact fits_holding (hno _) (fits_app (fits_app (fits_touch (by simp [rank]; omega)) hr) hr)
  | receiveForGroup g =>
    refine fits_holding (hno _) (fits_touch ?_)
    simp [rank]; omega
  | receiveForDoc d =>
    refine fits_holding (hno _) (fits_holding (by simp [rank]) (fits_touch ?_))
    simp [rank]; omega
  | receiveRevUnknown => exact hc.elim

end

/-- The calls as they start, each with the number of steps after which its walks are cut. -/
def started (M : Nat → List Node) (calls : List (Nat × Call)) : List Task :=
  begin (calls.map (fun c => c.2.acts M c.1))

theorem started_rises {M : Nat → List Node} {lev : Nat → Nat} {B : Nat} {b : Bool} (hM : Levels M lev B) (calls : List (Nat × Call))
    (hc : ∀ c ∈ calls, Respects M lev b c.2) : ∀ t ∈ started M calls, Rises (rank b lev B) t.held t.left := by
  intro t ht
  simp only [started, begin, List.map_map, List.mem_map, Function.comp] at ht
  obtain ⟨c, hcm, rfl⟩ := ht
  have := fits_call hM c.1 c.2 (hc c hcm) [] rfl
  simpa using this

/-- **C147** (no deadlock, in part). If no group or document is, at whatever distance, a member of itself, then however many calls that respect the levels run at the same time, and in whatever order they get their turns, there is never a point at which all that have not returned wait for each other.

Missing: groups and documents that are members of each other, the three kinds of calls `Respects` leaves out, and devices on which documents are made while groups or prekeys are: all these can wait forever (`C147_fails`, `C147_fails_making`, `C147_fails_alone`). -/
theorem C147_goes_on_partial {M : Nat → List Node} {lev : Nat → Nat} {B : Nat} {b : Bool} (hM : Levels M lev B) (calls : List (Nat × Call))
    (hc : ∀ c ∈ calls, Respects M lev b c.2) (sched : List Nat) : ¬ Stuck (polls (started M calls) sched) :=
  not_stuck (rank b lev B) _ (polls_rises _ sched _ (started_rises hM calls hc))

/-- **C147** (all return, in part). Under the same conditions, from every point that is reached all calls can go on to their end.

Missing: as in `C147_goes_on_partial`. -/
theorem C147_return_partial {M : Nat → List Node} {lev : Nat → Nat} {B : Nat} {b : Bool} (hM : Levels M lev B) (calls : List (Nat × Call))
    (hc : ∀ c ∈ calls, Respects M lev b c.2) (sched : List Nat) : ∃ more, Finished (polls (started M calls) (sched ++ more)) := by
  obtain ⟨more, h⟩ := finishes (rank b lev B) _ _ (Nat.le_refl _) (polls_rises _ sched _ (started_rises hM calls hc))
  refine ⟨more, ?_⟩
  unfold polls at h ⊢
  rw [List.foldl_append]
  exact h

/-- Polling never undoes anything, and a call that can go on does: so there are at most as many polls that find their call able to go on as there are steps in all the calls. -/
theorem C147_bounded (ts : List Task) (i : Nat) (t : Task) (hi : ts[i]? = some t) (hm : canMove ts t = true) :
    todo (poll ts i) < todo ts := by
  have hl : t.left ≠ [] := by
    intro hl
    simp [canMove, hl] at hm
  have : poll ts i = ts.set i t.move := by simp [poll, hi, hm]
  rw [this]
  exact todo_set ts i t hi hl

/-! ## One call alone, whatever the membership -/

/-- From here on no lock is taken that is held, and all are freed in the end. -/
def Clean : List Lock → List Act → Prop
  | held, [] => held = []
  | held, .take l :: as => l ∉ held ∧ Clean (l :: held) as
  | held, .free l :: as => Clean (held.erase l) as

/-- A piece of a call that can be done while these locks are held, if nobody else is there. -/
def Goes (held : List Lock) (as : List Act) : Prop := ∀ rest, Clean held rest → Clean held (as ++ rest)

theorem goes_nil {held : List Lock} : Goes held [] := fun _ h => h

theorem goes_app {held : List Lock} {as bs : List Act} (ha : Goes held as) (hb : Goes held bs) : Goes held (as ++ bs) := by
  intro rest h
  rw [List.append_assoc]
  exact ha _ (hb _ h)

theorem goes_holding {held : List Lock} {l : Lock} {as : List Act} (hl : l ∉ held) (ha : Goes (l :: held) as) :
    Goes held (holding l as) := by
  intro rest h
  refine ⟨hl, ?_⟩
  show Clean (l :: held) ((as ++ [.free l]) ++ rest)
  rw [List.append_assoc]
  refine ha _ ?_
  simp only [List.singleton_append, Clean, List.erase_cons_head]
  exact h

theorem goes_flatMap {α : Type} {held : List Lock} {f : α → List Act} {xs : List α} (h : ∀ x, Goes held (f x)) :
    Goes held (xs.flatMap f) := by
  induction xs with
  | nil => exact goes_nil
  | cons x xs ih =>
    rw [List.flatMap_cons]
    exact goes_app (h x) ih

theorem goes_walk (M : Nat → List Node) (held : List Lock) (root : Nat) (h : ∀ v, v ≠ root → .membered v ∉ held) :
    ∀ (n : Nat) (st : List Node), Goes held (walk M root n st)
  | 0, _ => by simp only [walk]; exact goes_nil
  | _ + 1, [] => by simp only [walk]; exact goes_nil
  | n + 1, .active :: st => by simp only [walk]; exact goes_walk M held root h n st
  | n + 1, .person i :: st => by simp only [walk]; exact goes_walk M held root h n st
  | n + 1, .membered v :: st => by
    simp only [walk]
    split
    · exact goes_walk M held root h n st
    · rename_i hv
      exact goes_app (goes_holding (h v hv) goes_nil) (goes_walk M held root h n _)

theorem goes_list (M : Nat → List Node) (held : List Lock) (h : ∀ v, .membered v ∉ held) (n r : Nat) :
    Goes held (listMembers M n r) := by
  refine goes_holding (h r) (goes_walk M _ r (fun v hv hm => ?_) n _)
  rcases List.mem_cons.1 hm with hm | hm
  · exact hv (Lock.membered.inj hm)
  · exact h v hm

theorem goes_touch {held : List Lock} {l : Lock} (hl : l ∉ held) : Goes held (touch l) := goes_holding hl goes_nil

theorem goes_individuals (M : Nat → List Node) (held : List Lock) (h : ∀ v, .membered v ∉ held) :
    ∀ (n : Nat) (st : List Node), Goes held (individuals M n st)
  | 0, _ => by simp only [individuals]; exact goes_nil
  | _ + 1, [] => by simp only [individuals]; exact goes_nil
  | n + 1, .active :: st => by simp only [individuals]; exact goes_individuals M held h n st
  | n + 1, .person i :: st => by simp only [individuals]; exact goes_individuals M held h n st
  | n + 1, .membered v :: st => by
    simp only [individuals]
    exact goes_app (goes_touch (h v)) (goes_individuals M held h n _)

theorem goes_prekeys (M : Nat → List Node) (held : List Lock) (h : ∀ l ∈ held, l = .csprng) :
    ∀ (n : Nat) (st : List Node), Goes held (prekeys M n st)
  | 0, _ => by simp only [prekeys]; exact goes_nil
  | _ + 1, [] => by simp only [prekeys]; exact goes_nil
  | n + 1, .active :: st => by
    simp only [prekeys]
    refine goes_app (goes_holding (fun hm => nomatch h _ hm) (goes_touch fun hm => ?_)) (goes_prekeys M held h n st)
    rcases List.mem_cons.1 hm with hm | hm
    · cases hm
    · exact nomatch h _ hm
  | n + 1, .person i :: st => by
    simp only [prekeys]
    exact goes_app (goes_touch fun hm => nomatch h _ hm) (goes_prekeys M held h n st)
  | n + 1, .membered v :: st => by
    simp only [prekeys]
    exact goes_app (goes_touch fun hm => nomatch h _ hm) (goes_prekeys M held h n _)

/-- The calls that do not walk through members while they hold the group or document they change: all but adding to a document, revoking from a document, and adding to a group by somebody who is no direct member. Receiving a revocation for a group nobody knows is left out as well. -/
def Careful : Call → Prop
  | .addToDoc _ _ _ _ | .revokeFromDoc _ _ _ | .receiveRevUnknown => False
  | .addToGroup g _ others _ indirect => g ∉ others ∧ indirect = false
  | _ => True

theorem goes_docs (M : Nat → List Node) (held : List Lock) (h : ∀ v, .membered v ∉ held) (hd : .docs ∉ held) (n : Nat) (docs : List Nat) :
    Goes held (docsReachable M n docs) :=
  goes_app (goes_touch hd) (goes_flatMap fun d => goes_list M held h n d)

theorem careful_clean (M : Nat → List Node) (n : Nat) (c : Call) (h : Careful c) : Clean [] (c.acts M n) := by
  have ht : ∀ l, Goes [] (touch l) := fun l => goes_touch (by simp)
  have hl : ∀ d, Goes [] (listMembers M n d) := fun d => goes_list M [] (by simp) n d
  have hr : ∀ docs, Goes [] (holding .active (docsReachable M n docs)) := fun docs =>
    goes_holding (by simp) (goes_docs M _ (by simp) (by simp) n docs)
  have hrot : Goes [.active] rotating := goes_app (goes_app (goes_touch (by simp)) (goes_touch (by simp))) (goes_touch (by simp))
  have key : Goes [] (c.acts M n) := by
    cases c with
    | reachableMembers r => exact hl r
    | docsReachableBy docs => exact goes_docs M [] (by simp) (by simp) n docs
    | reachableDocs docs => exact hr docs
    | memberedReachableBy groups docs =>
      exact goes_app (goes_app (ht _) (goes_flatMap hl)) (goes_docs M [] (by simp) (by simp) n docs)
    | encrypt d => exact goes_app (ht _) (goes_holding (by simp) (goes_touch (by simp)))
    | decrypt d => exact ht _
    | receiveAddOfMe d =>
      exact goes_app (ht _) (goes_holding (by simp) (goes_app (goes_touch (by simp)) (goes_touch (by simp))))
    | receiveOtherAdd d => exact goes_app (goes_app (ht _) (ht _)) (ht _)
    | receiveKeyOp d => exact goes_app (ht _) (ht _)
    | addToDoc d delegate others indirect => exact absurd h (by simp [Careful])
    | revokeFromDoc d delegates docs => exact absurd h (by simp [Careful])
    | addToGroup g delegate others docs indirect =>
      obtain ⟨ho, rfl⟩ := h
      have hothers : ∀ os : List Nat, g ∉ os → Goes [.membered g] (os.flatMap (fun o => touch (.membered o))) := by
        intro os
        induction os with
        | nil => intro _; exact goes_nil
        | cons o os ih =>
          intro hg
          rw [List.flatMap_cons]
          refine goes_app (goes_touch ?_) (ih fun hm => hg (by simp [hm]))
          simp only [List.mem_singleton, Lock.membered.injEq]
          rintro rfl
          exact hg (by simp)
      exact goes_app (goes_app (goes_app (ht _) (goes_holding (by simp) (goes_app (hothers others ho) goes_nil))) (ht _))
        (goes_flatMap fun d => goes_app (goes_app (hl d) (goes_prekeys M [] (by simp) n _)) (ht _))
    | revokeFromGroup g delegates docs =>
      exact goes_app (goes_app (goes_app (goes_app (goes_app (goes_app (goes_app (hr docs) (goes_flatMap fun d => ht _)) (ht _)) (ht _))
        (goes_individuals M [] (by simp) n _)) (ht _)) (ht _)) (goes_flatMap fun d => goes_app (hl d) (ht _))
    | generateDoc coparents =>
      exact goes_app (goes_app (goes_app (ht _) (ht _)) (goes_holding (by simp)
        (goes_app (goes_individuals M _ (by simp) n _) (goes_prekeys M _ (by simp) n _)))) (ht _)
    | generateGroup => exact goes_app (goes_holding (by simp) (goes_touch (by simp))) (ht _)
    | rotatePrekey => exact goes_holding (by simp) hrot
    | expandPrekeys =>
      exact goes_holding (by simp) (goes_app (goes_app (goes_touch (by simp)) (goes_touch (by simp))) (goes_touch (by simp)))
    | contactCard => exact goes_holding (by simp) (goes_app (goes_app (goes_touch (by simp)) hrot) hrot)
    | receiveForGroup g => exact goes_holding (by simp) (goes_touch (by simp))
    | receiveForDoc d => exact goes_holding (by simp) (goes_holding (by simp) (goes_touch (by simp)))
    | receiveRevUnknown => exact absurd h (by simp [Careful])
  simpa using key [] rfl

theorem clean_returns : ∀ (as : List Act) (held : List Lock), Clean held as →
    Finished (polls [⟨held, as⟩] (List.replicate as.length 0))
  | [], held, _ => by
    intro t ht
    simp only [List.length_nil, List.replicate_zero, polls, List.foldl_nil, List.mem_singleton] at ht
    rw [ht]
  | .take l :: as, held, h => by
    have hp : poll [⟨held, .take l :: as⟩] 0 = [⟨l :: held, as⟩] := by
      simp [poll, canMove, isFree, Task.move, h.1]
    have := clean_returns as (l :: held) h.2
    simp only [List.length_cons, List.replicate_succ, polls, List.foldl_cons, hp] at this ⊢
    exact this
  | .free l :: as, held, h => by
    have hp : poll [⟨held, .free l :: as⟩] 0 = [⟨held.erase l, as⟩] := by
      simp [poll, canMove, Task.move]
    have := clean_returns as (held.erase l) h
    simp only [List.length_cons, List.replicate_succ, polls, List.foldl_cons, hp] at this ⊢
    exact this

/-- **C147** (one call alone). A call that does not walk through members while it holds what it changes returns when no other call is running, whatever the membership: groups and documents may be members of each other. It does not have to wait even once. The other calls can hang all by themselves (`C147_fails_alone`). -/
theorem C147_alone (M : Nat → List Node) (n : Nat) (c : Call) (h : Careful c) :
    Finished (polls (started M [(n, c)]) (List.replicate (c.acts M n).length 0)) :=
  clean_returns _ _ (careful_clean M n c h)

/-! ## Samples -/

/-- Document 0 has group 1 and the own agent as members, group 1 has group 2 and person 7, and group 2 person 8. -/
def team : Nat → List Node
  | 0 => [.active, .membered 1]
  | 1 => [.membered 2, .person 7]
  | 2 => [.person 8]
  | _ => []

/-- The levels of `team`. -/
def teamLev (v : Nat) : Nat := if v < 3 then v else 3

theorem team_levels : Levels team teamLev 4 where
  below v w h := by
    match v, h with
    | 0, h => simp [team] at h; subst h; decide
    | 1, h => simp [team] at h; subst h; decide
    | 2, h => simp [team] at h
    | n + 3, h => simp [team] at h
  bound v := by unfold teamLev; split <;> omega

/-- Eight calls at the same time. -/
def busy : List (Nat × Call) :=
  [(9, .reachableDocs [0]), (9, .addToDoc 0 (.membered 2) [] false), (9, .receiveAddOfMe 0),
   (9, .addToGroup 1 .active [] [0] true), (9, .revokeFromDoc 0 [.membered 1] [0]),
   (9, .contactCard), (9, .generateGroup), (9, .receiveForDoc 0)]

theorem team_calm : ¬ Meets team (.membered 2) .active := by
  intro h
  cases h with
  | step hw hm =>
    simp only [team, List.mem_singleton] at hw
    subst hw
    cases hm

theorem busy_respects : ∀ c ∈ busy, Respects team teamLev false c.2 := by
  simp only [busy, List.mem_cons, List.not_mem_nil, or_false, forall_eq_or_imp, forall_eq, Respects]
  refine ⟨trivial, ⟨by simp, team_calm, ?_⟩, trivial, by simp, by simp [team], trivial, trivial, trivial⟩
  intro v h; cases h; decide

/-- The theorems apply to them, whatever the order of their turns. -/
example (sched : List Nat) : ∃ more, Finished (polls (started team busy) (sched ++ more)) :=
  C147_return_partial team_levels busy busy_respects sched

/-- They do wait for each other on the way: after these turns the second waits for the own agent, which the first holds. -/
example : canMove (polls (started team busy) [0, 0, 1]) ((polls (started team busy) [0, 0, 1])[1]?.getD ⟨[], []⟩) = false := by
  decide +kernel

instance (ts : List Task) : Decidable (Finished ts) := inferInstanceAs (Decidable (∀ t ∈ ts, t.left = []))
instance (ts : List Task) : Decidable (Stuck ts) := inferInstanceAs (Decidable (¬ Finished ts ∧ _))

/-- Two groups that are members of each other. -/
def twins : Nat → List Node
  | 1 => [.membered 2]
  | 2 => [.membered 1]
  | _ => []

/-- `C147_alone` applies to them: the walk from group 1 takes the locks of 1 and of 2, and comes back to 1. -/
example : Careful (.reachableMembers 1) ∧
    (Call.reachableMembers 1).acts twins 9 = [.take (.membered 1), .take (.membered 2), .free (.membered 2), .free (.membered 1)] := by
  exact ⟨trivial, by decide +kernel⟩

/-- **C147 fails** for two calls at the same time:
* listing the documents the own agent reaches holds the own agent and waits for the document, while adding the own agent to the document holds the document and waits for the own agent. Receiving the operation that adds the own agent does the same;
* adding somebody to a group while naming a document holds the group and waits for the document, while listing the members of that document, of which the group is one, holds the document and waits for the group;
* listing the members of two groups that are members of each other. -/
theorem C147_fails :
    Stuck (polls (started team [(9, .reachableDocs [0]), (9, .addToDoc 0 .active [] false)]) [1, 1, 1, 0, 0, 0]) ∧
    Stuck (polls (started team [(9, .receiveAddOfMe 0), (9, .addToDoc 0 .active [] false)]) [1, 1, 1, 0, 0, 0, 0, 0]) ∧
    Stuck (polls (started team [(9, .addToGroup 1 (.person 9) [0] [0] false), (9, .reachableMembers 0)]) [0, 0, 0, 1]) ∧
    Stuck (polls (started twins [(9, .reachableMembers 1), (9, .reachableMembers 2)]) [0, 1]) := by
  decide +kernel

/-- Making documents, with other calls. -/
def making : List (Nat × Call) :=
  [(9, .generateDoc [.membered 1, .person 7]), (9, .generateDoc []), (9, .encrypt 0), (9, .receiveAddOfMe 0), (9, .reachableDocs [0])]

theorem making_respects : ∀ c ∈ making, Respects team teamLev true c.2 := by
  simp [making, Respects]

/-- The theorems apply to them too. -/
example (sched : List Nat) : ∃ more, Finished (polls (started team making) (sched ++ more)) :=
  C147_return_partial team_levels making making_respects sched

/-- **C147 fails** for a device on which a document is made while the own agent gives out a contact card, replaces or adds a prekey, or makes a group: making the document holds the random numbers and waits for the own agent, whom the other call holds while it waits for the random numbers. It takes no groups and no members to get there. -/
theorem C147_fails_making :
    Stuck (polls (started (fun _ => []) [(9, .generateDoc []), (9, .contactCard)]) [0, 0, 0, 0, 0, 1, 1, 1]) ∧
    Stuck (polls (started (fun _ => []) [(9, .generateDoc []), (9, .rotatePrekey)]) [0, 0, 0, 0, 0, 1]) ∧
    Stuck (polls (started (fun _ => []) [(9, .generateDoc []), (9, .expandPrekeys)]) [0, 0, 0, 0, 0, 1]) ∧
    Stuck (polls (started (fun _ => []) [(9, .generateDoc []), (9, .generateGroup)]) [0, 0, 0, 0, 0, 1]) := by
  decide +kernel

/-- **C147 fails** for one call alone: adding a member to a document while naming the same document among the others; adding to a document a group of which the document is a member; revoking from a document a group of which it is a member; and adding somebody to a group, by somebody who is a member of it only through a group of which it is a member itself; and receiving a revocation for a group nobody knows, after which whatever else is received waits too. -/
theorem C147_fails_alone :
    Stuck (polls (started team [(9, .addToDoc 0 (.person 9) [0] false)]) [0, 0, 0]) ∧
    Stuck (polls (started twins [(9, .addToDoc 1 (.membered 2) [] false)]) [0, 0, 0, 0, 0]) ∧
    Stuck (polls (started twins [(9, .revokeFromDoc 1 [.membered 2] [])]) (List.replicate 9 0)) ∧
    Stuck (polls (started twins [(9, .addToGroup 1 (.person 9) [] [] true)]) (List.replicate 4 0)) ∧
    Stuck (polls (started (fun _ => []) [(9, .receiveRevUnknown), (9, .receiveForGroup 1), (9, .receiveForDoc 2), (9, .receiveKeyOp 2)]) [0, 0, 1, 2, 3]) := by
  decide +kernel

end Verif.Keyhive.Locks
