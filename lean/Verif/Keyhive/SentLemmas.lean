import Verif.Keyhive.BulkLemmas
import Verif.Keyhive.NewDocLemmas
import Verif.Prekey.Lemmas

/-! # Which prekey operations are sent -/

namespace Verif.Prekey

theorem topsort_all {s : State} (hnd : (AMap.values s).Nodup) (hac : Acyclic (AMap.values s)) (hown : OwnKeys (AMap.values s))
    (hg : Grounded (AMap.values s)) : ∃ out, topsort s.length s = some out ∧ ∀ o ∈ AMap.values s, o ∈ out := by
  obtain ⟨out, h1, h2⟩ := topsortLoop_ok hnd hown s.length _ [] (sortInv_start hnd) (by simp [AMap.values])
  exact ⟨out, h1, h2.complete hac hg⟩

end Verif.Prekey

namespace Verif.Keyhive

open Verif.Group Verif.Cgka Verif.BeeKem

theorem perm_of_get {K V : Type} [DecidableEq K] {s t : AMap K V} (hs : AMap.WF s) (ht : AMap.WF t) (h : ∀ x, AMap.get s x = AMap.get t x) :
    s.Perm t := by
  refine (List.perm_ext_iff_of_nodup (List.Nodup.of_map Prod.fst hs) (List.Nodup.of_map Prod.fst ht)).2 (fun p => ?_)
  constructor
  · intro hp
    have := AMap.get_of_mem hs hp
    rw [h] at this
    exact AMap.mem_of_get this
  · intro hp
    have := AMap.get_of_mem ht hp
    rw [← h] at this
    exact AMap.mem_of_get this

/-- All states in the map are well formed. -/
def AllWF (m : AMap Id Prekey.State) : Prop := ∀ x s, AMap.get m x = some s → AMap.WF s

theorem allWF_add {m : AMap Id Prekey.State} (hm : AllWF m) (i : Id) (ops : Prekey.State) : AllWF (Keyhive.addManyKeys m i ops) := by
  intro x s h
  unfold Keyhive.addManyKeys at h
  rw [AMap.get_insert] at h
  split at h
  · cases h
    have key : ∀ (l s : Prekey.State), AMap.WF s → AMap.WF (l.foldl (fun s p => AMap.insert s p.1 p.2) s) := by
      intro l
      induction l with
      | nil => intro s h; exact h
      | cons p l ih => intro s h; exact ih _ (AMap.wf_insert h _ _)
    refine key _ _ ?_
    cases hg : AMap.get m i with
    | none => exact AMap.wf_nil
    | some s => exact hm i s hg
  · exact hm x s h

theorem allWF_prekeys (k : Keyhive) (a : Agent) : AllWF (k.prekeyOpsFor a) := by
  unfold Keyhive.prekeyOpsFor
  have h0 : AllWF (Keyhive.addManyKeys (Keyhive.addManyKeys [] k.reg.me (k.keyOps ⟨.active, k.reg.me⟩)) a.id (k.keyOps a)) :=
    allWF_add (allWF_add (fun x s h => by cases h) _ _) _ _
  have mem : ∀ (l : List (Id × Agent × Access)) (m : AMap Id Prekey.State), AllWF m →
      AllWF (l.foldl (fun m p => if AMap.contains m p.1 then m else Keyhive.addManyKeys m p.1 (k.keyOps p.2.1)) m) := by
    intro l
    induction l with
    | nil => intro m h; exact h
    | cons p l ih =>
      intro m h
      refine ih _ ?_
      dsimp only
      split
      · exact h
      · exact allWF_add h _ _
  have src : ∀ (l : List (Agent × Group)) (m : AMap Id Prekey.State), AllWF m → AllWF (l.foldl (k.prekeysOf a.id) m) := by
    intro l
    induction l with
    | nil => intro m h; exact h
    | cons p l ih =>
      intro m h
      refine ih _ ?_
      unfold Keyhive.prekeysOf
      simp only
      split
      · exact mem _ _ (allWF_add h _ _)
      · exact h
  exact src _ _ h0

theorem source_of {k : Keyhive} {gid : Id} {g : Group} (hg : AMap.get k.world gid = some g) :
    ∃ b, (b, g) ∈ k.sources := by
  rw [get_world, Option.or_eq_some_iff] at hg
  rcases hg with h | ⟨_, h⟩
  · exact ⟨_, List.mem_append_left _ (List.mem_map.2 ⟨g, List.mem_map.2 ⟨(gid, g), AMap.mem_of_get h, rfl⟩, rfl⟩)⟩
  · rw [Option.map_eq_some_iff] at h
    obtain ⟨d, h1, rfl⟩ := h
    exact ⟨_, List.mem_append_right _ (List.mem_map.2 ⟨d, List.mem_map.2 ⟨(gid, d), AMap.mem_of_get h1, rfl⟩, rfl⟩)⟩

theorem listed_agree {k : Keyhive} {g : Group} (hS : Sound k.world g) {b c : Agent} {x : Access} {links : List Access}
    (hc : AMap.get (k.listed g) b.id = some (c, x)) (hb : Path k.world g b links) : c = b := by
  obtain ⟨caps, h⟩ := transitive_ok k.world g
  have he : k.listed g = caps := by unfold Keyhive.listed; rw [h]
  rw [he] at hc
  obtain ⟨e, l, hp, _⟩ := (transitive_spec hS h).1 _ _ _ hc
  exact Trans.path_agree hS hp hb e

/-- The prekeys of an individual met by the query are sent. -/
theorem prekey_sent {E : Env} {k : Keyhive} {a : Agent} (hwf : ∀ b, AMap.WF (k.keyOps b))
    (hK : ∀ x b c, Keyhive.Met k a x b → Keyhive.Met k a x c → k.keyOps b = k.keyOps c) {i : Id} {c : Agent} (hc : Keyhive.Met k a i c)
    (hin : (AMap.get (k.prekeyOpsFor a) i).isSome = true) (hnd : (AMap.values (k.keyOps c)).Nodup)
    (hac : Prekey.Acyclic (AMap.values (k.keyOps c))) (hown : Prekey.OwnKeys (AMap.values (k.keyOps c)))
    (hgr : Prekey.Grounded (AMap.values (k.keyOps c))) {op : Prekey.KeyOp} (ho : op ∈ AMap.values (k.keyOps c)) :
    Event.prekey op ∈ k.eventsFor E a := by
  obtain ⟨s, hs⟩ := Option.isSome_iff_exists.1 hin
  obtain ⟨b, hb, hsb⟩ := (Keyhive.single_prekeys hwf hK).1 i s hs
  rw [hK i b c hb hc] at hsb
  have hperm : (AMap.values s).Perm (AMap.values (k.keyOps c)) :=
    (perm_of_get (allWF_prekeys k a i s hs) (hwf c) hsb).map Prod.snd
  have hmem : ∀ o, o ∈ AMap.values s ↔ o ∈ AMap.values (k.keyOps c) := fun o => hperm.mem_iff
  obtain ⟨out, h1, h2⟩ := Prekey.topsort_all (s := s) (hperm.nodup_iff.2 hnd)
    (by obtain ⟨r, hr⟩ := hac; exact ⟨r, fun o ho => hr o ((hmem o).1 ho)⟩)
    (fun o ho o' ho' => hown o ((hmem o).1 ho) o' ((hmem o').1 ho'))
    (by intro x hx; rw [Prekey.introduced_congr hmem, Prekey.retired_congr hmem] at *; exact hgr x hx)
  refine List.mem_append_left _ (List.mem_append_right _ (List.mem_map.2 ⟨op, List.mem_flatMap.2 ⟨s, ?_, ?_⟩, rfl⟩))
  · exact List.mem_map.2 ⟨(i, s), AMap.mem_of_get hs, rfl⟩
  · rw [h1]
    exact h2 op ((hmem op).2 ho)

theorem listed_wf (k : Keyhive) (g : Group) : AMap.WF (k.listed g) := by
  unfold Keyhive.listed
  split
  · rename_i h; exact transitive_wf h
  · exact AMap.wf_nil

end Verif.Keyhive
