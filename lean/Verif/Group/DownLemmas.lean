import Verif.Group.Down
import Verif.Group.HoldsLemmas
import Verif.Group.GroupFacts
import Verif.Group.RevokeLemmas

/-! # Helper lemmas: everything below the heads of a group -/

namespace Verif.Group

open Relation

theorem Revs.mem_down : ∀ {rs : Revs} {x : Op}, x ∈ rs.down ↔ ∃ r ∈ rs.toList, x ∈ r.down
  | .nil, x => by simp [Revs.down, Revs.toList]
  | .cons r rs, x => by
    rw [Revs.down, List.mem_append, Revs.mem_down, Revs.toList]
    simp

theorem Op.mem_down_step (o x : Op) : x ∈ o.down ↔ x = o ∨ ∃ b ∈ o.after, x ∈ b.down := by
  cases o with
  | dlg d =>
    cases d with
    | root => simp [Op.down, Dlg.down, Op.after, Dlg.proof, Dlg.after, Revs.mem_down]
    | link => simp [Op.down, Dlg.down, Op.after, Dlg.proof, Dlg.after, Revs.mem_down]
  | rev r => cases r <;> simp [Op.down, Rev.down, Op.after, Rev.proof, Rev.revoke]

theorem Op.weight_after {o b : Op} (h : b ∈ o.after) : b.weight < o.weight := by
  rw [Op.weight_eq o]
  have : ∀ l : List Op, b ∈ l → b.weight ≤ stackWeight l := by
    intro l
    induction l with
    | nil => intro h; cases h
    | cons a l ih =>
      intro h
      have e : stackWeight (a :: l) = a.weight + stackWeight l := by simp [stackWeight]
      rw [e]
      rcases List.mem_cons.1 h with rfl | h
      · omega
      · have := ih h; omega
  have := this _ h
  omega

theorem Op.mem_down_iff (o x : Op) : x ∈ o.down ↔ ReflTransGen Dep o x := by
  have : ∀ n (o : Op), o.weight < n → (x ∈ o.down ↔ ReflTransGen Dep o x) := by
    intro n
    induction n with
    | zero => intro o h; omega
    | succ n ih =>
      intro o h
      rw [Op.mem_down_step]
      constructor
      · rintro (rfl | ⟨b, hb, hx⟩)
        · exact .refl
        · have hb' := Op.weight_after hb
          exact .head hb ((ih b (by omega)).1 hx)
      · intro hr
        rcases ReflTransGen.cases_head hr with rfl | ⟨b, hb, hx⟩
        · exact .inl rfl
        · have hb' := Op.weight_after hb
          exact .inr ⟨b, hb, (ih b (by omega)).2 hx⟩
  exact this _ o (Nat.lt_succ_self _)

variable {H : Op → Nat} {N : Nested} {S : Op → Option Nat}

/-! ## Members come from operations that are held -/

theorem explore_below {heads : List Op} : ∀ (n : Nat) {stack : List Op} {t : Table},
    (∀ {k op}, AMap.get t.ops k = some op → Below heads op) → (∀ op ∈ stack, Below heads op) →
    ∀ {k op}, AMap.get (explore H n stack t).ops k = some op → Below heads op
  | 0, _, _, ht, _ => fun hg => ht hg
  | _ + 1, [], _, ht, _ => fun hg => ht hg
  | n + 1, x :: stack, t, ht, hs => by
    rw [explore]
    split
    · exact explore_below n ht (fun op h => hs op (by simp [h]))
    · refine explore_below n ?_ ?_
      · intro k op hg
        have : (t.record H x).ops = AMap.insert t.ops (H x) x := by unfold Table.record; rfl
        rw [this, AMap.get_insert] at hg
        split at hg
        · cases hg; exact hs _ (by simp)
        · exact ht hg
      · intro op h
        rcases List.mem_append.1 h with h | h
        · exact (hs x (by simp)).dep (List.mem_reverse.1 h)
        · exact hs op (by simp [h])

theorem history_holds {g : Group} {o : Op} (h : o ∈ g.history H) : g.Holds o := by
  unfold Group.history reverseTopsort at h
  rw [List.mem_reverse, List.mem_filterMap] at h
  obtain ⟨k, _, hk⟩ := h
  unfold collect at hk
  refine explore_below _ ?_ ?_ hk
  · intro k op hg; cases hg
  · intro op ho; exact Below.head (List.mem_reverse.1 ho)

theorem dropMember_sub {m : AMap Id (List Dlg)} {p : Id × Nat} {i : Id} {ds : List Dlg} {d : Dlg}
    (h : AMap.get (View.dropMember m p) i = some ds) (hd : d ∈ ds) : ∃ ds', AMap.get m i = some ds' ∧ d ∈ ds' := by
  unfold View.dropMember at h
  split at h
  · rw [AMap.get_erase] at h
    split at h
    · cases h
    · exact ⟨ds, h, hd⟩
  · rw [AMap.get_insert] at h
    split at h
    · rename_i he
      injection h with hl
      subst he
      cases hm : AMap.get m p.1 with
      | none => rw [← hl] at hd; simp [hm] at hd
      | some ds' =>
        refine ⟨ds', rfl, ?_⟩
        simp only [hm, Option.getD_some] at hl
        rw [← hl] at hd
        exact (List.mem_filter.1 hd).1
    · exact ⟨ds, h, hd⟩

theorem dropMembers_sub : ∀ (l : List (Id × Nat)) {m : AMap Id (List Dlg)} {i : Id} {ds : List Dlg} {d : Dlg},
    AMap.get (l.foldl View.dropMember m) i = some ds → d ∈ ds → ∃ ds', AMap.get m i = some ds' ∧ d ∈ ds'
  | [], _, _, _, _, h, hd => ⟨_, h, hd⟩
  | p :: l, m, i, ds, d, h, hd => by
    obtain ⟨ds', h1, h2⟩ := dropMembers_sub l h hd
    exact dropMember_sub h1 h2

theorem replay_sub (gid : Id) (l : List Op) : ∀ {m : Id} {d : Dlg}, (View.replay gid l).Mem m d → .dlg d ∈ l := by
  induction l using List.reverseRecOn with
  | nil => rintro m d ⟨ds, h, _⟩; simp [View.replay, View.empty] at h
  | append_singleton l o ih =>
    intro m d hm
    rw [View.replay_append] at hm
    obtain ⟨ds, h, hd⟩ := hm
    have old : ∀ {ds'}, AMap.get (View.replay gid l).members m = some ds' → d ∈ ds' → .dlg d ∈ l ++ [o] :=
      fun h1 h2 => by simp [ih ⟨_, h1, h2⟩]
    cases o with
    | dlg x =>
      simp only [View.apply, View.delegation] at h
      have hn : ((View.replay gid l).noteProof x).members = (View.replay gid l).members := by
        unfold View.noteProof; split <;> rfl
      split at h
      · rw [hn] at h; exact old h hd
      · split at h
        · rw [hn] at h; exact old h hd
        · simp only [View.play, hn, AMap.get_insert] at h
          split at h
          · rename_i he
            cases h
            rcases List.mem_append.1 hd with h1 | h1
            · cases hg : AMap.get (View.replay gid l).members x.delegate.id with
              | none => simp [hg] at h1
              | some ds' => subst he; exact old hg (by simpa [hg] using h1)
            · simp [List.mem_singleton.1 h1]
          · exact old h hd
    | rev r =>
      simp only [View.apply, View.revocation] at h
      split at h
      · exact old h hd
      · obtain ⟨ds', h1, h2⟩ := dropMembers_sub _ h hd
        exact old h1 h2

theorem Rebuilt.held {g : Group} (h : Rebuilt H g) {m : Id} {d : Dlg} (hm : g.MemberBy m d) : g.Holds (.dlg d) :=
  history_holds (replay_sub _ _ ((mem_view h).1 hm))

/-! ## What local calls issue -/

theorem Revs.toList_ofList : ∀ l : List Rev, (Revs.ofList l).toList = l
  | [] => rfl
  | r :: l => by simp [Revs.ofList, Revs.toList, Revs.toList_ofList l]

/-- Everything the group holds is in `P` or was issued, and what was issued builds on that. -/
structure Track (P V : Op → Prop) (l : List Op) (g : Group) : Prop where
  held : ∀ x, g.Holds x → P x ∨ x ∈ l
  deps : ∀ o ∈ l, ∀ b, Dep o b → P b ∨ b ∈ l
  good : ∀ o ∈ l, V o
  own : ∀ o ∈ l, o.subject = g.id

section Track
variable {P V : Op → Prop} {l : List Op} {g g' : Group}

theorem Track.down (hP : ∀ a b, P a → Dep a b → P b) (h : Track P V l g) {a b : Op} (ha : P a ∨ a ∈ l) (hr : ReflTransGen Dep a b) :
    P b ∨ b ∈ l := by
  induction hr with
  | refl => exact ha
  | tail _ hd ih =>
    rcases ih with h1 | h1
    · exact .inl (hP _ _ h1 hd)
    · exact h.deps _ h1 _ hd

theorem Track.step (hP : ∀ a b, P a → Dep a b → P b) (h : Track P V l g) (hg : HeadsOk H g) {o : Op} (ha : Accepts H g o g') (hV : V o)
    (hdep : ∀ b, Dep o b → P b ∨ b ∈ l) : Track P V (l ++ [o]) g' := by
  have up : ∀ {b}, P b ∨ b ∈ l → P b ∨ b ∈ l ++ [o] := fun h => h.imp id (fun h => by simp [h])
  refine ⟨?_, ?_, ?_, ?_⟩
  · intro x hx
    rcases holds_sub hg ha hx with h1 | h1 | ⟨b, h1, y, hy, hr⟩
    · exact up (h.held x h1)
    · exact .inr (by simp [h1])
    · rw [List.mem_singleton] at hy
      subst hy
      exact up (h.down hP (hdep _ h1) hr)
  · intro x hx b hb
    rcases List.mem_append.1 hx with h1 | h1
    · exact up (h.deps x h1 b hb)
    · rw [List.mem_singleton.1 h1] at hb
      exact up (hdep b hb)
  · intro x hx
    rcases List.mem_append.1 hx with h1 | h1
    · exact h.good x h1
    · rw [List.mem_singleton.1 h1]; exact hV
  · intro x hx
    rw [(accepts_step ha hg).2.2]
    rcases List.mem_append.1 hx with h1 | h1
    · exact h.own x h1
    · rw [List.mem_singleton.1 h1]
      cases ha with
      | dlg N h => exact backed_subject (receive_iff.1 ⟨_, h⟩)
      | rev N h => exact (receiveRevocation_grounds h).1

theorem rev_mk_deps {signer : Id} {s : Nat} {d : Dlg} {p : Option Dlg} {c : Content} {b : Op} (h : Dep (.rev (.mk signer s d p c)) b) :
    b = .dlg d ∨ ∃ q, p = some q ∧ b = .dlg q := by
  rcases mem_after_rev.1 h with h | ⟨q, h1, h2⟩
  · rw [(rev_mk_proof ..).2.2] at h; exact .inl h
  · rw [(rev_mk_proof ..).1] at h1; exact .inr ⟨q, h1, h2⟩

/-- Signatures made with `S` are good. -/
structure Makes (S : Op → Option Nat) (V : Op → Prop) : Prop where
  dlg : ∀ i s a c p rs x, S (.dlg (.mk i 0 a c p rs x)) = some s → V (.dlg (.mk i s a c p rs x))
  rev : ∀ i s d p x, S (.rev (.mk i 0 d p x)) = some s → V (.rev (.mk i s d p x))

/-- The groups reached and what they issued. -/
structure Issued (H : Op → Nat) (P V : Op → Prop) (l : List Op) (g : Group) : Prop where
  track : Track P V l g
  ok : HeadsOk H g
  built : Rebuilt H g

theorem Issued.member (h : Issued H P V l g) {m : Id} {d : Dlg} (hm : g.MemberBy m d) : P (.dlg d) ∨ .dlg d ∈ l :=
  h.track.held _ (h.built.held hm)

theorem issueAll_issued (hP : ∀ a b, P a → Dep a b → P b) (hS : Makes S V) {signer : Id} {revoke : Dlg} {content : Content} :
    ∀ (ps : List (Option Dlg)) {g : Group} {l : List Op} {done : List Rev}, Issued H P V l g → (P (.dlg revoke) ∨ .dlg revoke ∈ l) →
    (∀ p, some p ∈ ps → P (.dlg p) ∨ .dlg p ∈ l) →
    ∃ l', Issued H P V (l ++ l') (Group.issueAll H N S signer revoke content g ps done).1 ∧
      ∀ revs, (Group.issueAll H N S signer revoke content g ps done).2 = .ok revs → revs.map Op.rev = done.map Op.rev ++ l'
  | [], g, l, done, h, _, _ => ⟨[], by rw [List.append_nil]; exact h, by intro revs h; cases h; simp⟩
  | p :: ps, g, l, done, h, hr, hps => by
    unfold Group.issueAll
    cases hi : g.issueRevocation H N S signer revoke p content with
    | error e => exact ⟨[], by simpa using h, by intro revs h; cases h⟩
    | ok gr =>
      obtain ⟨g1, r⟩ := gr
      obtain ⟨s, e1, e2, e3⟩ := issueRevocation_ok hi
      have hacc : Accepts H g (.rev r) g1 := .rev N e3
      obtain ⟨k1, k2, -⟩ := accepts_step hacc h.ok
      have ht : Track P V (l ++ [.rev r]) g1 := by
        refine h.track.step hP h.ok hacc (by rw [e2]; exact hS.rev _ _ _ _ _ e1) ?_
        intro b hb
        rw [e2] at hb
        rcases rev_mk_deps hb with rfl | ⟨q, h1, rfl⟩
        · exact hr
        · exact hps q (by simp [h1])
      obtain ⟨l', q1, q2⟩ := issueAll_issued hP hS ps (done := done ++ [r]) ⟨ht, k1, k2⟩ (hr.imp id (fun h => by simp [h]))
        (fun p hp => (hps p (by simp [hp])).imp id (fun h => by simp [h]))
      refine ⟨.rev r :: l', ?_, ?_⟩
      · have := q1; simpa using this
      · intro revs hrevs
        have := q2 revs hrevs
        simpa using this

theorem nestedProof_mem {g : Group} {signer : Id} {min : Access} : ∀ {ms : List Id} {p : Dlg},
    g.nestedProof N signer min ms = .ok (some p) → ∃ m, g.MemberBy m p
  | [], _, h => by simp [Group.nestedProof] at h
  | m :: ms, p, h => by
    unfold Group.nestedProof at h
    split at h
    · exact nestedProof_mem h
    · rename_i dlg hc
      simp only [bind, Except.bind] at h
      split at h
      · cases h
      · split at h
        · exact nestedProof_mem h
        · split at h
          · exact nestedProof_mem h
          · split at h
            · simp only [pure, Except.pure, Except.ok.injEq, Option.some.injEq] at h
              exact ⟨m, by rw [← h]; exact (getCapability_mem hc).1⟩
            · exact nestedProof_mem h

theorem lineage_down : ∀ {d a : Dlg}, a ∈ d.lineage → ReflTransGen Dep (.dlg d) (.dlg a)
  | .root .., a, h => by simp [Dlg.lineage] at h
  | .link i s g c p af ct, a, h => by
    have hp : Dep (.dlg (.link i s g c p af ct)) (.dlg p) := mem_after_dlg.2 (Or.inl ⟨p, rfl, rfl⟩)
    simp only [Dlg.lineage, List.mem_cons] at h
    rcases h with rfl | h
    · exact .single hp
    · exact .head hp (lineage_down h)

theorem revokeOne_issued (hP : ∀ a b, P a → Dep a b → P b) (hS : Makes S V) {member signer : Id} {content : Content} {g : Group}
    {l : List Op} {d : Dlg} {done : List Rev} (h : Issued H P V l g) (hd : P (.dlg d) ∨ .dlg d ∈ l) :
    ∃ l', Issued H P V (l ++ l') (Group.revokeOne H N S member signer content g d done).1 ∧
      ∀ revs, (Group.revokeOne H N S member signer content g d done).2 = .ok revs → revs.map Op.rev = done.map Op.rev ++ l' := by
  unfold Group.revokeOne
  split
  · split
    · exact ⟨[], by simpa using h, by intro revs h; cases h⟩
    · exact ⟨[], by simpa using h, by intro revs h; cases h⟩
    · rename_i p hp
      obtain ⟨m, hm⟩ := nestedProof_mem hp
      exact issueAll_issued hP hS _ h hd (by intro q hq; simp at hq; subst hq; exact h.member hm)
  · refine issueAll_issued hP hS _ h hd ?_
    intro q hq
    unfold Group.ownProofs at hq
    rcases List.mem_append.1 hq with hq | hq
    · simp only [List.mem_map, List.mem_filter, Option.some.injEq] at hq
      obtain ⟨x, ⟨hx, _⟩, rfl⟩ := hq
      cases hg : AMap.get g.members signer with
      | none => simp [hg] at hx
      | some ds => exact h.member ⟨ds, hg, by simpa [hg] using hx⟩
    · split at hq
      · simp only [List.mem_singleton, Option.some.injEq] at hq
        rw [hq]; exact hd
      · simp only [List.mem_map, Option.mem_toList, Option.some.injEq] at hq
        obtain ⟨x, hx, rfl⟩ := hq
        exact h.track.down hP hd (lineage_down (List.mem_of_find?_eq_some hx))

theorem revokeEach_issued (hP : ∀ a b, P a → Dep a b → P b) (hS : Makes S V) {member signer : Id} {content : Content} :
    ∀ (ds : List Dlg) {g : Group} {l : List Op} {done : List Rev}, Issued H P V l g → (∀ d ∈ ds, P (.dlg d)) →
    ∃ l', Issued H P V (l ++ l') (Group.revokeEach H N S member signer content g ds done).1 ∧
      ∀ revs, (Group.revokeEach H N S member signer content g ds done).2 = .ok revs → revs.map Op.rev = done.map Op.rev ++ l'
  | [], g, l, done, h, _ => ⟨[], by rw [List.append_nil]; exact h, by intro revs h; cases h; simp⟩
  | d :: ds, g, l, done, h, hd => by
    unfold Group.revokeEach
    have h1 : ∃ l', Issued H P V (l ++ l') (if signer = g.id then Group.issueAll H N S signer d content g [none] done
        else Group.revokeOne H N S member signer content g d done).1 ∧
        ∀ revs, (if signer = g.id then Group.issueAll H N S signer d content g [none] done
        else Group.revokeOne H N S member signer content g d done).2 = .ok revs → revs.map Op.rev = done.map Op.rev ++ l' := by
      split
      · exact issueAll_issued hP hS _ h (.inl (hd d (by simp))) (by simp)
      · exact revokeOne_issued hP hS h (.inl (hd d (by simp)))
    simp only
    obtain ⟨l1, q1, q2⟩ := h1
    split
    · rename_i g2 e heq
      rw [heq] at q1
      exact ⟨l1, q1, by intro revs h; cases h⟩
    · rename_i g2 done' heq
      rw [heq] at q1 q2
      obtain ⟨l2, r1, r2⟩ := revokeEach_issued hP hS ds (done := done') q1 (fun d' h' => hd d' (by simp [h']))
      refine ⟨l1 ++ l2, by rw [← List.append_assoc]; exact r1, ?_⟩
      intro revs hrevs
      rw [r2 revs hrevs, q2 _ rfl, List.append_assoc]

theorem addMember_issued (hP : ∀ a b, P a → Dep a b → P b) (hS : Makes S V) {who : Agent} {can : Access} {signer : Id}
    {content : Content} {g g' : Group} {l : List Op} {d : Dlg} (h : Issued H P V l g)
    (ha : g.addMember H N S who can signer content = .ok (g', d)) : Issued H P V (l ++ [.dlg d]) g' := by
  obtain ⟨proof, s, h1, h2, h3, h4⟩ := addMember_ok ha
  have hacc : Accepts H g (.dlg d) g' := .dlg N h4
  obtain ⟨k1, k2, -⟩ := accepts_step hacc h.ok
  refine ⟨h.track.step hP h.ok hacc (by rw [h3]; exact hS.dlg _ _ _ _ _ _ _ h2) ?_, k1, k2⟩
  intro b hb
  rcases mem_after_dlg.1 hb with ⟨p, hp, rfl⟩ | ⟨r, hr, rfl⟩
  · have : d.proof = proof := by rw [h3]; cases proof <;> rfl
    rw [this] at hp
    rw [hp] at h1
    obtain ⟨m, hm⟩ := proofFor_mem h1
    exact h.member hm
  · have : d.after = AMap.values g.revHeads := by
      rw [h3]
      cases proof <;> simp [Dlg.mk, Dlg.after, Revs.toList_ofList]
    rw [this] at hr
    exact h.track.held _ (Below.head (by simp [Group.heads, hr]))

theorem redelegate_issued (hP : ∀ a b, P a → Dep a b → P b) (hS : Makes S V) {member signer : Id} {content : Content} :
    ∀ (ds : List Dlg) {g : Group} {l : List Op} {done : List Dlg}, Issued H P V l g →
    ∃ l', Issued H P V (l ++ l') (Group.redelegate H N S member signer content g ds done).1 ∧
      ∀ dlgs, (Group.redelegate H N S member signer content g ds done).2 = .ok dlgs → dlgs.map Op.dlg = done.map Op.dlg ++ l'
  | [], g, l, done, h => ⟨[], by rw [List.append_nil]; exact h, by intro revs h; cases h; simp⟩
  | d :: ds, g, l, done, h => by
    unfold Group.redelegate
    split
    · exact redelegate_issued hP hS ds h
    · split
      · exact redelegate_issued hP hS ds h
      · split
        · split
          · exact ⟨[], by simpa using h, by intro revs h; cases h⟩
          · rename_i g2 d' heq
            obtain ⟨l', q1, q2⟩ := redelegate_issued hP hS ds (done := done ++ [d']) (addMember_issued hP hS h heq)
            refine ⟨.dlg d' :: l', ?_, ?_⟩
            · have := q1; simpa using this
            · intro dlgs hd
              have := q2 dlgs hd
              simpa using this
        · exact redelegate_issued hP hS ds h

/-- What `revoke_member` issued builds on what the group held before, whether or not it failed at some point. -/
theorem revokeMember_issued (hS : Makes S V) {g : Group} (hg : HeadsOk H g) (hb : Rebuilt H g) (member : Id) (retain : Bool)
    (signer : Id) (content : Content) :
    ∃ l, Issued H g.Holds V l (g.revokeMember H N S member retain signer content).1 ∧
      ∀ revs dlgs, (g.revokeMember H N S member retain signer content).2 = .ok (revs, dlgs) →
        l = revs.map Op.rev ++ dlgs.map Op.dlg := by
  have h0 : Issued H g.Holds V [] g := ⟨⟨fun x hx => .inl hx, by simp, by simp, by simp⟩, hg, hb⟩
  have hP : ∀ a b, g.Holds a → Dep a b → g.Holds b := fun a b ha hd => ha.dep hd
  unfold Group.revokeMember
  split
  · exact ⟨[], h0, by intro revs dlgs h; cases h; simp⟩
  · rename_i toRevoke hm
    obtain ⟨l, q1, q2⟩ := revokeEach_issued (N := N) (member := member) (signer := signer) (content := content) hP hS toRevoke
      (done := []) h0 (fun d hd => hb.held ⟨toRevoke, hm, hd⟩)
    simp only
    rw [List.nil_append] at q1
    split
    · rename_i g2 e heq
      rw [heq] at q1
      exact ⟨l, q1, by intro revs dlgs h; cases h⟩
    · rename_i g2 revs heq
      rw [heq] at q1 q2
      have q3 := q2 revs rfl
      split
      · obtain ⟨l', r1, r2⟩ := redelegate_issued (N := N) (member := member) (signer := signer) (content := content) hP hS
          ((AMap.values g.members).flatten) (done := []) q1
        split
        · rename_i g3 e heq2
          rw [heq2] at r1
          exact ⟨_, r1, by intro revs dlgs h; cases h⟩
        · rename_i g3 dl heq2
          rw [heq2] at r1 r2
          refine ⟨_, r1, ?_⟩
          intro revs' dlgs' h
          cases h
          have := r2 dl rfl
          simp only [List.map_nil, List.nil_append] at this q3
          rw [q3, this]
      · refine ⟨l, q1, ?_⟩
        intro revs' dlgs' h
        cases h
        simpa using q3.symm

end Track

theorem Group.headOps_eq (g : Group) : g.headOps = g.heads := rfl

theorem Group.mem_allDown {g : Group} {x : Op} : x ∈ g.headOps.flatMap Op.down ↔ g.Holds x := by
  rw [List.mem_flatMap]
  exact ⟨fun ⟨h, h1, h2⟩ => ⟨h, h1, (Op.mem_down_iff _ _).1 h2⟩, fun ⟨h, h1, h2⟩ => ⟨h, h1, (Op.mem_down_iff _ _).2 h2⟩⟩

theorem Group.mem_newOps {g g' : Group} {x : Op} : x ∈ g.newOps g' ↔ g'.Holds x ∧ ¬ g.Holds x := by
  unfold Group.newOps
  rw [List.mem_filter, Group.mem_allDown, decide_eq_true_eq, Group.mem_allDown]

end Verif.Group
