import Verif.Keyhive.TablesSpec
import Verif.Keyhive.StoreLemmas

/-! # Lemmas about the tables of events -/

namespace Verif.Keyhive

open Verif.Group Verif.Cgka Verif.BeeKem

variable {E : Env}

namespace Keyhive

theorem toEvent_name (o : Op) : E.name (toEvent E o) = E.opDigest o := by
  cases o with
  | dlg d => exact (dlgDigest_eq E d).symm
  | rev r => exact (revDigest_eq E r).symm

theorem walk_names {next : Op → List Op} : ∀ n stack (ops : AMap Nat Op), (∀ p ∈ ops, p.1 = E.opDigest p.2) →
    ∀ p ∈ walk E next n stack ops, p.1 = E.opDigest p.2
  | 0, _, ops, h => by simpa [walk] using h
  | _ + 1, [], ops, h => by simpa [walk] using h
  | n + 1, o :: stack, ops, h => by
    unfold walk
    split
    · exact walk_names n _ _ h
    · refine walk_names n _ _ fun p hp => ?_
      rcases List.mem_cons.1 hp with rfl | hp
      · rfl
      · exact h p (List.mem_filter.1 hp).1

theorem collect_names {k : Keyhive} {follow : Bool} {start : List Op} {ops : AMap Nat Op} (h : ∀ p ∈ ops, p.1 = E.opDigest p.2) :
    ∀ p ∈ k.collect E follow start ops, p.1 = E.opDigest p.2 := walk_names _ _ _ h

theorem single_names {k : Keyhive} {a : Agent} : ∀ p ∈ k.membershipOpsFor E a, p.1 = E.opDigest p.2 :=
  collect_names (by simp)

theorem bulk_names {k : Keyhive} : ∀ q ∈ (k.membershipOpsForAll E).ops, ∀ p ∈ q.2, p.1 = E.opDigest p.2 := by
  have key1 : ∀ (l : List Group) (b : Bulk (AMap Nat Op)), (∀ q ∈ b.ops, ∀ p ∈ q.2, p.1 = E.opDigest p.2) →
      ∀ q ∈ (l.foldl (k.bulkGroup E) b).ops, ∀ p ∈ q.2, p.1 = E.opDigest p.2 := by
    intro l
    induction l with
    | nil => exact fun b h => h
    | cons g l ih =>
      intro b h
      refine ih _ fun q hq => ?_
      rcases List.mem_cons.1 hq with rfl | hq
      · exact collect_names (by simp)
      · exact h q (List.mem_filter.1 hq).1
  have key2 : ∀ (l : List Rev) (b : Bulk (AMap Nat Op)), (∀ q ∈ b.ops, ∀ p ∈ q.2, p.1 = E.opDigest p.2) →
      ∀ q ∈ (l.foldl (k.bulkRev E) b).ops, ∀ p ∈ q.2, p.1 = E.opDigest p.2 := by
    intro l
    induction l with
    | nil => exact fun b h => h
    | cons r l ih =>
      intro b h
      refine ih _ fun q hq => ?_
      rcases List.mem_cons.1 hq with rfl | hq
      · refine collect_names ?_
        cases hg : AMap.get b.ops r.revoke.delegate.id with
        | none => simp
        | some m => simpa using h _ (AMap.mem_of_get hg)
      · exact h q (List.mem_filter.1 hq).1
  exact key2 _ _ (key1 _ _ (by simp))

end Keyhive

theorem Env.Apart.name_inj (h : E.Apart) : Function.Injective E.name := by
  intro a b hab
  cases a <;> cases b <;> simp only [Env.name] at hab
  all_goals first
    | (have := h.event hab; exact this)
    | (rw [h.dlg hab])
    | (rw [h.rev hab])
    | exact absurd hab (h.dlgRev _ _)
    | exact absurd hab.symm (h.dlgRev _ _)
    | exact absurd hab (h.eventDlg _ _)
    | exact absurd hab.symm (h.eventDlg _ _)
    | exact absurd hab (h.eventRev _ _)
    | exact absurd hab.symm (h.eventRev _ _)

/-- Entries are stored under the name of the event. -/
def Coherent (E : Env) (m : List (Nat × Event)) : Prop := ∀ p ∈ m, p.1 = E.name p.2

theorem put_coherent {m : AMap Nat Event} {e : Event} (hm : Coherent E m) (he : E.hashEvent e = E.name e) : Coherent E (Keyhive.putEvent E m e) := by
  intro p hp
  rcases List.mem_cons.1 hp with rfl | hp
  · exact he
  · exact hm p (List.mem_filter.1 hp).1

theorem puts_coherent : ∀ (l : List Event) (m : AMap Nat Event), Coherent E m → (∀ e ∈ l, E.hashEvent e = E.name e) →
    Coherent E (l.foldl (Keyhive.putEvent E) m)
  | [], _, hm, _ => hm
  | e :: l, m, hm, hl => puts_coherent l _ (put_coherent hm (hl e (by simp))) (fun x hx => hl x (by simp [hx]))

theorem get_puts (hE : Function.Injective E.name) {n : Nat} {ev : Event} : ∀ (l : List Event) (m : AMap Nat Event), Coherent E m →
    (∀ e ∈ l, E.hashEvent e = E.name e) → (AMap.get (l.foldl (Keyhive.putEvent E) m) n = some ev ↔
      AMap.get m n = some ev ∨ (ev ∈ l ∧ n = E.name ev))
  | [], m, _, _ => by simp
  | e :: l, m, hm, hl => by
    have he := hl e (by simp)
    rw [List.foldl_cons, get_puts hE l _ (put_coherent hm he) (fun x hx => hl x (by simp [hx]))]
    unfold Keyhive.putEvent
    rw [AMap.get_insert, he]
    by_cases hn : n = E.name e
    · subst hn
      simp only [if_true, Option.some.injEq, List.mem_cons]
      constructor
      · rintro (rfl | ⟨h1, h2⟩)
        · exact .inr ⟨.inl rfl, rfl⟩
        · exact .inr ⟨.inr h1, h2⟩
      · rintro (h | ⟨rfl | h1, h2⟩)
        · exact .inl (hE (hm _ (AMap.mem_of_get h)))
        · exact .inl rfl
        · exact .inr ⟨h1, h2⟩
    · simp only [if_neg hn, List.mem_cons]
      constructor
      · rintro (h | ⟨h1, h2⟩)
        · exact .inl h
        · exact .inr ⟨.inr h1, h2⟩
      · rintro (h | ⟨rfl | h1, h2⟩)
        · exact .inl h
        · exact absurd h2 hn
        · exact .inr ⟨h1, h2⟩

theorem source_coherent : ∀ (l : List (Nat × Event)) (m : AMap Nat Event), Coherent E m → Coherent E l → Coherent E (Keyhive.jsSource m l)
  | [], _, hm, _ => hm
  | q :: l, m, hm, hl => by
    refine source_coherent l _ (fun p hp => ?_) (fun x hx => hl x (by simp [hx]))
    dsimp only at hp
    unfold AMap.orInsert at hp
    split at hp
    · exact hm p hp
    · rcases List.mem_cons.1 hp with rfl | hp
      · exact hl q (by simp)
      · first | exact hm p (List.mem_filter.1 hp).1 | exact hm p hp

theorem get_source (hE : Function.Injective E.name) {n : Nat} {ev : Event} : ∀ (l : List (Nat × Event)) (m : AMap Nat Event), Coherent E m →
    Coherent E l → (AMap.get (Keyhive.jsSource m l) n = some ev ↔ AMap.get m n = some ev ∨ (n, ev) ∈ l)
  | [], m, _, _ => by simp [Keyhive.jsSource]
  | q :: l, m, hm, hl => by
    have hq := hl q (by simp)
    have hc : Coherent E (AMap.orInsert m q.1 q.2) := source_coherent [q] m hm (fun p hp => by rw [List.mem_singleton.1 hp]; exact hq)
    have := get_source hE (n := n) (ev := ev) l _ hc (fun x hx => hl x (by simp [hx]))
    unfold Keyhive.jsSource at this ⊢
    rw [List.foldl_cons, this, AMap.get_orInsert, List.mem_cons]
    by_cases h : n = q.1 ∧ AMap.get m q.1 = none
    · rw [if_pos h]
      obtain ⟨rfl, hn⟩ := h
      constructor
      · rintro (h | h)
        · exact .inr (.inl (by rw [← Option.some.inj h]))
        · exact .inr (.inr h)
      · rintro (h | h | h)
        · rw [hn] at h; cases h
        · exact .inl (by rw [← h])
        · exact .inr h
    · rw [if_neg h]
      constructor
      · rintro (h | h)
        · exact .inl h
        · exact .inr (.inr h)
      · rintro (h | h' | h)
        · exact .inl h
        · subst h'
          cases hg : AMap.get m n with
          | none => exact absurd ⟨rfl, hg⟩ h
          | some x =>
            have e := hm _ (AMap.mem_of_get hg)
            dsimp only at e hq
            rw [hE (e.symm.trans hq)]
            exact .inl rfl
        · exact .inr h

theorem sources_coherent : ∀ (ls : List (List (Nat × Event))) (m : AMap Nat Event), Coherent E m → (∀ l ∈ ls, Coherent E l) →
    Coherent E (ls.foldl Keyhive.jsSource m)
  | [], _, hm, _ => hm
  | l :: ls, m, hm, h => sources_coherent ls _ (source_coherent l m hm (h l (by simp))) (fun x hx => h x (by simp [hx]))

theorem get_sources (hE : Function.Injective E.name) {n : Nat} {ev : Event} : ∀ (ls : List (List (Nat × Event))) (m : AMap Nat Event),
    Coherent E m → (∀ l ∈ ls, Coherent E l) →
    (AMap.get (ls.foldl Keyhive.jsSource m) n = some ev ↔ AMap.get m n = some ev ∨ ∃ l ∈ ls, (n, ev) ∈ l)
  | [], m, _, _ => by simp
  | l :: ls, m, hm, h => by
    rw [List.foldl_cons, get_sources hE ls _ (source_coherent l m hm (h l (by simp))) (fun x hx => h x (by simp [hx])),
      get_source hE l m hm (h l (by simp))]
    simp only [List.mem_cons, exists_eq_or_imp, or_assoc]

theorem Keyhive.get_coherent (hE : Function.Injective E.name) {m : AMap Nat Event} (hm : Coherent E m) {n : Nat} {ev : Event} (h : (n, ev) ∈ m) :
    AMap.get m n = some ev := by
  cases hg : AMap.get m n with
  | none => exact absurd (List.mem_map_of_mem (f := Prod.fst) h) (fun hx => (AMap.mem_keys_iff _ _).1 hx hg)
  | some x =>
    have e1 := hm _ (AMap.mem_of_get hg)
    have e2 := hm _ h
    dsimp only at e1 e2
    rw [hE (e1.symm.trans e2)]

namespace Keyhive

theorem ops_coherent {k : Keyhive} {a : Agent} : Coherent E ((k.membershipOpsFor E a).map (fun p => (p.1, toEvent E p.2))) := by
  intro p hp
  obtain ⟨q, hq, rfl⟩ := List.mem_map.1 hp
  rw [toEvent_name]
  exact single_names q hq

theorem table_coherent {k : Keyhive} {a : Agent} : Coherent E (k.eventTable E a) := by
  refine puts_coherent _ _ (puts_coherent _ _ ops_coherent ?_) ?_
  · intro e he
    obtain ⟨o, -, rfl⟩ := List.mem_map.1 he
    rfl
  · intro e he
    obtain ⟨o, -, rfl⟩ := List.mem_map.1 he
    rfl

theorem membership_coherent {k : Keyhive} : ∀ l ∈ AMap.values (k.jsMembership E).ops, Coherent E l := by
  intro l hl p hp
  obtain ⟨⟨s, l'⟩, hq, rfl⟩ := List.mem_map.1 hl
  obtain ⟨⟨s', m⟩, hq', e⟩ := List.mem_map.1 hq
  cases e
  obtain ⟨x, hx, rfl⟩ := List.mem_map.1 hp
  rw [toEvent_name]
  exact bulk_names _ hq' _ hx

theorem prekey_coherent {k : Keyhive} : ∀ l ∈ AMap.values (k.jsPrekey E).ops, Coherent E l := by
  intro l hl p hp
  obtain ⟨⟨s, l'⟩, hq, rfl⟩ := List.mem_map.1 hl
  obtain ⟨⟨s', m⟩, hq', e⟩ := List.mem_map.1 hq
  cases e
  obtain ⟨x, hx, rfl⟩ := List.mem_map.1 hp
  rfl

theorem cgka_coherent {k : Keyhive} : ∀ l ∈ AMap.values (k.jsCgka E).ops, Coherent E l := by
  intro l hl p hp
  obtain ⟨⟨s, l'⟩, hq, rfl⟩ := List.mem_map.1 hl
  obtain ⟨⟨s', m⟩, hq', e⟩ := List.mem_map.1 hq
  cases e
  obtain ⟨x, hx, rfl⟩ := List.mem_map.1 hp
  rfl

/-- The events of `allAgentEvents` are those of all sources. -/
theorem get_jsAll (hE : Function.Injective E.name) {k : Keyhive} {n : Nat} {ev : Event} :
    AMap.get (k.jsAll E).events n = some ev ↔ ∃ l ∈ AMap.values (k.jsMembership E).ops ++ AMap.values (k.jsPrekey E).ops ++
      AMap.values (k.jsCgka E).ops, (n, ev) ∈ l := by
  have h0 : Coherent E ([] : AMap Nat Event) := by intro p hp; cases hp
  have h1 := sources_coherent _ _ h0 (membership_coherent (E := E) (k := k))
  have h2 := sources_coherent _ _ h1 (prekey_coherent (E := E) (k := k))
  show AMap.get ((AMap.values (k.jsCgka E).ops).foldl jsSource ((AMap.values (k.jsPrekey E).ops).foldl jsSource
    ((AMap.values (k.jsMembership E).ops).foldl jsSource []))) n = some ev ↔ _
  rw [get_sources hE _ _ h2 cgka_coherent, get_sources hE _ _ h1 prekey_coherent, get_sources hE _ _ h0 membership_coherent]
  simp only [AMap.get_nil, reduceCtorEq, false_or, List.mem_append, or_assoc]
  constructor
  · rintro (⟨l, h1, h2⟩ | ⟨l, h1, h2⟩ | ⟨l, h1, h2⟩)
    · exact ⟨l, .inl h1, h2⟩
    · exact ⟨l, .inr (.inl h1), h2⟩
    · exact ⟨l, .inr (.inr h1), h2⟩
  · rintro ⟨l, h1 | h1 | h1, h2⟩
    · exact .inl ⟨l, h1, h2⟩
    · exact .inr (.inl ⟨l, h1, h2⟩)
    · exact .inr (.inr ⟨l, h1, h2⟩)

end Keyhive

theorem get_mapped {α β γ : Type} [DecidableEq α] (f : β → γ) (m : AMap α β) (a : α) :
    AMap.get (m.map (fun p => (p.1, f p.2))) a = (AMap.get m a).map f := by
  induction m with
  | nil => rfl
  | cons p m ih =>
    simp only [AMap.get, List.map_cons, List.find?_cons] at ih ⊢
    by_cases h : p.1 = a <;> simp_all

theorem opsFor_mapped {α β : Type} (f : α → β) (b : Bulk α) (i : Id) :
    ((⟨b.ops.map (fun p => (p.1, f p.2)), b.index⟩ : Bulk β).opsFor i).getD [] = ((b.opsFor i).getD []).map f := by
  unfold Bulk.opsFor
  dsimp only
  cases AMap.get b.index i with
  | none => rfl
  | some l =>
    simp only [Option.map_some, Option.getD_some, List.map_filterMap]
    exact congrArg (fun g => List.filterMap g l) (funext fun x => get_mapped f b.ops x)

theorem mem_opsFor {α : Type} {b : Bulk α} {i : Id} {x : α} (h : x ∈ (b.opsFor i).getD []) : ∃ s, AMap.get b.ops s = some x := by
  unfold Bulk.opsFor at h
  cases hg : AMap.get b.index i with
  | none => rw [hg] at h; cases h
  | some l =>
    rw [hg] at h
    obtain ⟨s, -, hs⟩ := List.mem_filterMap.1 h
    exact ⟨s, hs⟩

/-- Following the sources of an agent. -/
theorem leads_iff {events : AMap Nat Event} {b : Bulk (List (Nat × Event))}
    (hin : ∀ l ∈ AMap.values b.ops, ∀ p ∈ l, AMap.get events p.1 = some p.2) {i : Id} {ev : Event} :
    Leads events ⟨b.ops.map (fun p => (p.1, p.2.map (·.1))), b.index⟩ i ev ↔ ∃ l ∈ (b.opsFor i).getD [], ∃ n, (n, ev) ∈ l := by
  unfold Leads Bulk.opsFor
  simp only [get_mapped]
  cases hg : AMap.get b.index i with
  | none => simp
  | some srcs =>
    simp only [Option.some.injEq, Option.map_some, Option.getD_some, List.mem_filterMap]
    constructor
    · rintro ⟨_, rfl, s, hs, hashes, hh, n, hn, he⟩
      obtain ⟨l, hl, rfl⟩ := Option.map_eq_some_iff.1 hh
      obtain ⟨p, hp, rfl⟩ := List.mem_map.1 hn
      have := hin l (List.mem_map_of_mem (f := Prod.snd) (AMap.mem_of_get hl)) p hp
      rw [this] at he
      cases he
      exact ⟨l, ⟨s, hs, hl⟩, p.1, hp⟩
    · rintro ⟨l, ⟨s, hs, hl⟩, n, hp⟩
      exact ⟨srcs, rfl, s, hs, _, by rw [hl]; rfl, n, List.mem_map.2 ⟨_, hp, rfl⟩,
        hin l (List.mem_map_of_mem (f := Prod.snd) (AMap.mem_of_get hl)) _ hp⟩

end Verif.Keyhive
