import Verif.Prekey.Lemmas

/-! # Runs of the registry and of the active agent -/

namespace Verif.Prekey

/-- What the outside world can send about prekeys: an event, or a contact card. -/
inductive Input where
  | event (op : KeyOp)
  | card (op : KeyOp)
deriving DecidableEq, Repr

/-- The operation in an input. -/
def Input.op : Input → KeyOp
  | event op => op
  | card op => op

namespace Registry

/-- Handle one input. -/
def step (H : KeyOp → Nat) (valid : KeyOp → Bool) (r : Registry) : Input → Registry × Except Err Unit
  | .event op => r.receivePrekeyOp H valid op
  | .card op => r.receiveContactCard H valid op

/-- Handle a sequence of inputs, whatever their outcome. -/
def run (H : KeyOp → Nat) (valid : KeyOp → Bool) (r : Registry) (ins : List Input) : Registry :=
  ins.foldl (fun r i => (r.step H valid i).1) r

/-- Everything known about an agent's prekeys was signed by that agent. -/
def AuthenticIndie (valid : KeyOp → Bool) (id : Id) (i : Indie) : Prop :=
  i.id = id ∧ (∀ o ∈ AMap.values i.state, valid o = true ∧ o.issuer = id) ∧ i.prekeys = State.build i.state

/-- Everything known about every agent's prekeys was signed by that agent. -/
def Authentic (valid : KeyOp → Bool) (r : Registry) : Prop :=
  (∀ id i, AMap.get r.indies id = some i → AuthenticIndie valid id i) ∧
  (∀ id i, AMap.get r.membered id = some (some i) → AuthenticIndie valid id i)

/-- The signer of the input is not being heard of for the first time (as somebody with prekeys). -/
def Known (r : Registry) : Input → Prop
  | .event op =>
    match (if op.issuer = r.me then none else AMap.get r.membered op.issuer) with
    | some none => False
    | some (some _) => True
    | none => AMap.contains r.indies op.issuer = true
  | .card op => AMap.contains r.indies op.issuer = true

instance (r : Registry) : (i : Input) → Decidable (r.Known i)
  | .event op =>
    match h : (if op.issuer = r.me then none else AMap.get r.membered op.issuer) with
    | some none => .isFalse (by simp [Known, h])
    | some (some _) => .isTrue (by simp [Known, h])
    | none => decidable_of_iff (AMap.contains r.indies op.issuer = true) (by simp [Known, h])
  | .card op => inferInstanceAs (Decidable (AMap.contains r.indies op.issuer = true))

/-- In a sequence of inputs, the first input about each agent is genuine. -/
def FirstContactsGenuine (H : KeyOp → Nat) (valid : KeyOp → Bool) : Registry → List Input → Prop
  | _, [] => True
  | r, i :: is => (valid i.op = true ∨ r.Known i) ∧ FirstContactsGenuine H valid (r.step H valid i).1 is

theorem values_insert {m : State} {d : Nat} {op o : KeyOp} (h : o ∈ AMap.values (AMap.insert m d op)) :
    o = op ∨ o ∈ AMap.values m := by
  simp only [AMap.values, AMap.insert, AMap.erase, List.map_cons, List.mem_cons, List.mem_map, List.mem_filter] at h
  rcases h with h | ⟨p, ⟨hp, _⟩, rfl⟩
  · exact .inl h
  · exact .inr (List.mem_map.2 ⟨p, hp, rfl⟩)

theorem authentic_new (H : KeyOp → Nat) {valid : KeyOp → Bool} {op : KeyOp} (h : valid op = true) :
    AuthenticIndie valid op.issuer (Indie.new H op) := by
  refine ⟨rfl, fun o ho => ?_, rfl⟩
  rcases values_insert (m := []) ho with rfl | ho
  · exact ⟨h, rfl⟩
  · simp [AMap.values] at ho

theorem authentic_receive {H : KeyOp → Nat} {valid : KeyOp → Bool} {id : Id} {i i' : Indie} {op : KeyOp}
    (h : AuthenticIndie valid id i) (hr : i.receive H valid op = .ok i') : AuthenticIndie valid id i' := by
  obtain ⟨h1, h2, rfl⟩ := receive_ok hr
  refine ⟨h.1, fun o ho => ?_, rfl⟩
  rcases values_insert ho with rfl | ho
  · exact ⟨h2, h1.trans h.1⟩
  · exact h.2.1 o ho

theorem receive_invalid (H : KeyOp → Nat) {valid : KeyOp → Bool} (i : Indie) {op : KeyOp} (h : valid op = false) :
    ∃ e, i.receive H valid op = .error e := by
  unfold Indie.receive State.insertOp
  by_cases h1 : op.issuer = i.id
  · exact ⟨.verification, by simp [h1, h, bind, Except.bind]⟩
  · exact ⟨.incorrectSigner, by simp [h1]⟩

theorem authentic_receiveIndie {H : KeyOp → Nat} {valid : KeyOp → Bool} {r : Registry} (hr : r.Authentic valid) {i : Indie}
    (hi : AuthenticIndie valid i.id i) (op : KeyOp) : (r.receiveIndie H valid i op).1.Authentic valid := by
  unfold receiveIndie
  split
  · exact hr
  · rename_i i' hok
    refine ⟨fun id j hj => ?_, hr.2⟩
    rw [AMap.get_insert] at hj
    split at hj
    · rename_i he
      subst he
      cases hj
      exact authentic_receive hi hok
    · exact hr.1 id j hj

theorem authentic_register {valid : KeyOp → Bool} {r : Registry} (hr : r.Authentic valid) {i : Indie}
    (hi : AuthenticIndie valid i.id i) : (r.registerIndividual i).Authentic valid := by
  unfold registerIndividual
  split
  · exact hr
  · refine ⟨fun id j hj => ?_, hr.2⟩
    simp only [AMap.get_insert] at hj
    split at hj
    · rename_i he
      subst he
      cases hj
      exact hi
    · exact hr.1 id j hj

theorem authentic_step (H : KeyOp → Nat) {valid : KeyOp → Bool} {r : Registry} (hr : r.Authentic valid) (i : Input)
    (hk : valid i.op = true ∨ r.Known i) : (r.step H valid i).1.Authentic valid := by
  cases i with
  | card op =>
    simp only [step, receiveContactCard]
    split
    · rename_i j hj
      have := hr.1 _ j hj
      exact authentic_receiveIndie hr (by rw [this.1]; exact this) op
    · rename_i hj
      rcases hk with hk | hk
      · exact authentic_register hr (authentic_new H hk)
      · simp [Known, AMap.contains, hj] at hk
  | event op =>
    simp only [step, receivePrekeyOp]
    split
    · exact hr
    · split
      · rename_i known hm
        have hm' : AMap.get r.membered op.issuer = some known := by
          split at hm
          · cases hm
          · exact hm
        unfold receiveMembered
        cases known with
        | none =>
          rcases hk with hk | hk
          · refine ⟨hr.1, fun id j hj => ?_⟩
            simp only [AMap.get_insert] at hj
            split at hj
            · rename_i he
              subst he
              cases hj
              exact authentic_new H hk
            · exact hr.2 id j hj
          · simp [Known, hm] at hk
        | some j =>
          have hj := hr.2 _ j hm'
          dsimp only
          split
          · exact hr
          · rename_i j' hok
            refine ⟨hr.1, fun id j2 hj2 => ?_⟩
            simp only [AMap.get_insert] at hj2
            split at hj2
            · rename_i he
              subst he
              cases hj2
              exact authentic_receive hj hok
            · exact hr.2 id j2 hj2
      · rename_i hm
        split
        · rename_i j hj
          have := hr.1 _ j hj
          exact authentic_receiveIndie hr (by rw [this.1]; exact this) op
        · rename_i hj
          rcases hk with hk | hk
          · exact authentic_receiveIndie (authentic_register hr (authentic_new H hk)) (authentic_new H hk) op
          · simp [Known, hm, AMap.contains, hj] at hk

theorem authentic_run (H : KeyOp → Nat) {valid : KeyOp → Bool} : ∀ (ins : List Input) {r : Registry},
    r.Authentic valid → FirstContactsGenuine H valid r ins → (r.run H valid ins).Authentic valid := by
  intro ins
  induction ins with
  | nil => intro r hr _; exact hr
  | cons i is ih =>
    intro r hr hf
    exact ih (authentic_step H hr i hf.1) hf.2

/-- A forged input about a known agent changes nothing. -/
theorem forged_known (H : KeyOp → Nat) {valid : KeyOp → Bool} {r : Registry} (i : Input) (hv : valid i.op = false)
    (hk : r.Known i) : (r.step H valid i).1 = r := by
  cases i with
  | card op =>
    simp only [step, receiveContactCard]
    split
    · rename_i j hj
      obtain ⟨e, he⟩ := receive_invalid H j hv
      simp only [Input.op] at he
      simp [receiveIndie, he]
    · rename_i hj
      simp [Known, AMap.contains, hj] at hk
  | event op =>
    simp only [step, receivePrekeyOp]
    split
    · rfl
    · split
      · rename_i known hm
        cases known with
        | none => simp [Known, hm] at hk
        | some j =>
          obtain ⟨e, he⟩ := receive_invalid H j hv
          simp only [Input.op] at he
          simp [receiveMembered, he]
      · rename_i hm
        split
        · rename_i j hj
          obtain ⟨e, he⟩ := receive_invalid H j hv
          simp only [Input.op] at he
          simp [receiveIndie, he]
        · rename_i hj
          simp [Known, hm, AMap.contains, hj] at hk

/-- Every individual is filed under its own id. -/
def Filed (r : Registry) : Prop := ∀ id i, AMap.get r.indies id = some i → i.id = id

theorem pub_event (H : KeyOp → Nat) (valid : KeyOp → Bool) {r : Registry} (hf : r.Filed) (op : KeyOp) :
    AMap.get (r.step H valid (.event op)).1.indies r.pub = AMap.get r.indies r.pub ∧
    (r.step H valid (.event op)).1.pub = r.pub ∧ (r.step H valid (.event op)).1.Filed := by
  have key : ∀ (r' : Registry) (j : Indie), r'.pub = r.pub → r'.Filed → j.id ≠ r.pub →
      AMap.get (r'.receiveIndie H valid j op).1.indies r.pub = AMap.get r'.indies r.pub ∧
      (r'.receiveIndie H valid j op).1.pub = r.pub ∧ (r'.receiveIndie H valid j op).1.Filed := by
    intro r' j hp hf' hj
    unfold receiveIndie
    split
    · exact ⟨rfl, hp, hf'⟩
    · rename_i j' hok
      obtain ⟨_, _, rfl⟩ := receive_ok hok
      refine ⟨?_, hp, fun id i hi => ?_⟩
      · simp only
        rw [AMap.get_insert_ne _ _ (Ne.symm hj)]
      · simp only [AMap.get_insert] at hi
        split at hi
        · rename_i he
          cases hi
          exact he.symm
        · exact hf' id i hi
  simp only [step, receivePrekeyOp]
  split
  · exact ⟨rfl, rfl, hf⟩
  · rename_i hne
    split
    · rename_i known hm
      unfold receiveMembered
      cases known with
      | none => exact ⟨rfl, rfl, hf⟩
      | some j =>
        dsimp only
        split <;> exact ⟨rfl, rfl, hf⟩
    · split
      · rename_i j hj
        exact key r j rfl hf (by rw [hf _ j hj]; exact hne)
      · rename_i hj
        have hreg : r.registerIndividual (Indie.new H op) =
            { r with indies := AMap.insert r.indies op.issuer (Indie.new H op) } := by
          simp [registerIndividual, Indie.new, AMap.contains, hj]
        have := key (r.registerIndividual (Indie.new H op)) (Indie.new H op) (by rw [hreg]) (by
          rw [hreg]
          intro id i hi
          simp only [AMap.get_insert] at hi
          split at hi
          · rename_i he
            cases hi
            exact he.symm
          · exact hf id i hi) hne
        refine ⟨this.1.trans ?_, this.2⟩
        rw [hreg]
        exact AMap.get_insert_ne _ _ (Ne.symm hne)

theorem pub_events (H : KeyOp → Nat) (valid : KeyOp → Bool) : ∀ (ops : List KeyOp) {r : Registry}, r.Filed →
    AMap.get (r.run H valid (ops.map .event)).indies r.pub = AMap.get r.indies r.pub := by
  intro ops
  induction ops with
  | nil => intro r _; rfl
  | cons op ops ih =>
    intro r hf
    obtain ⟨h1, h2, h3⟩ := pub_event H valid hf op
    have := ih h3
    rw [h2] at this
    exact this.trans h1

end Registry

/-! ## The active agent -/

/-- The signer works for one agent and its signatures verify. -/
def SignsFor (valid : KeyOp → Bool) (me : Id) (S : Body → Option KeyOp) : Prop :=
  ∀ b op, S b = some op → op.body = b ∧ op.issuer = me ∧ valid op = true

/-- How the active agent on one device evolves: it is generated, rotates and expands its prekeys, and imports secrets. -/
inductive Device (H : KeyOp → Nat) (valid : KeyOp → Bool) (pk : Secret → Key) (S : Body → Option KeyOp) (me : Id) :
    Active → Prop
  | generate {a : Active} (init : Secret) (others : List Secret)
      (h : Active.generate H valid pk S me init others = .ok a) : Device H valid pk S me a
  | rotate {a a' : Active} {op : KeyOp} (old : Key) (sk : Secret) (h : Device H valid pk S me a)
      (hr : a.rotatePrekey H pk S old sk = .ok (a', op)) : Device H valid pk S me a'
  | expand {a a' : Active} {op : KeyOp} (sk : Secret) (h : Device H valid pk S me a)
      (hr : a.expandPrekeys H pk S sk = .ok (a', op)) : Device H valid pk S me a'
  | importSecrets {a : Active} (m : AMap Key Secret) (hm : ∀ k sk, (k, sk) ∈ m → pk sk = k)
      (h : Device H valid pk S me a) : Device H valid pk S me (a.importSecrets m)

theorem signAdds_ok {S : Body → Option KeyOp} : ∀ {ks : List Key} {ops : List KeyOp}, Active.signAdds S ks = .ok ops →
    ∀ o ∈ ops, ∃ k ∈ ks, S (.add k) = some o := by
  intro ks
  induction ks with
  | nil => intro ops h o ho; cases h; cases ho
  | cons k ks ih =>
    intro ops h o ho
    unfold Active.signAdds at h
    split at h
    · cases h
    · rename_i op hop
      cases hrec : Active.signAdds S ks with
      | error e => rw [hrec] at h; cases h
      | ok ops' =>
        rw [hrec] at h
        cases h
        rcases List.mem_cons.1 ho with rfl | ho
        · exact ⟨k, by simp, hop⟩
        · obtain ⟨k', hk', e⟩ := ih hrec o ho
          exact ⟨k', by simp [hk'], e⟩

theorem extend_values {H : KeyOp → Nat} {valid : KeyOp → Bool} : ∀ {ops : List KeyOp} {s s' : State},
    s.extend H valid ops = .ok s' → ∀ o ∈ AMap.values s', o ∈ AMap.values s ∨ o ∈ ops := by
  intro ops
  induction ops with
  | nil => intro s s' h o ho; cases h; exact .inl ho
  | cons op ops ih =>
    intro s s' h o ho
    unfold State.extend at h
    cases hi : s.insertOp H valid op with
    | error e => rw [hi] at h; cases h
    | ok s1 =>
      rw [hi] at h
      rcases ih h o ho with h1 | h1
      · unfold State.insertOp at hi
        split at hi
        · cases hi
          rcases Registry.values_insert h1 with rfl | h1
          · exact .inr (by simp)
          · exact .inl h1
        · cases hi
      · exact .inr (by simp [h1])

/-- The device knows the secret of the key. -/
def Active.Opens (pk : Secret → Key) (a : Active) (k : Key) : Prop := ∃ sk, AMap.get a.pairs k = some sk ∧ pk sk = k

theorem opens_insert {pk : Secret → Key} {a a' : Active} {k : Key} {sk : Secret}
    (h : a'.pairs = AMap.insert a.pairs (pk sk) sk) (hk : k = pk sk ∨ a.Opens pk k) : a'.Opens pk k := by
  by_cases hc : k = pk sk
  · exact ⟨sk, by rw [h, hc, AMap.get_insert_self], hc.symm⟩
  · rcases hk with hk | ⟨sk', h1, h2⟩
    · exact absurd hk hc
    · exact ⟨sk', by rw [h, AMap.get_insert_ne _ _ hc]; exact h1, h2⟩

theorem import_good {pk : Secret → Key} {m : AMap Key Secret} : ∀ {p : AMap Key Secret}, (∀ k sk, (k, sk) ∈ m → pk sk = k) →
    (∀ k sk, AMap.get p k = some sk → pk sk = k) →
    (∀ k sk, AMap.get (m.foldl (fun acc p => AMap.insert acc p.1 p.2) p) k = some sk → pk sk = k) ∧
    (∀ k, AMap.contains p k = true → AMap.contains (m.foldl (fun acc p => AMap.insert acc p.1 p.2) p) k = true) := by
  induction m with
  | nil => intro p _ hp; exact ⟨hp, fun _ h => h⟩
  | cons q m ih =>
    intro p hm hp
    have := ih (p := AMap.insert p q.1 q.2) (fun k sk h => hm k sk (by simp [h])) (by
      intro k sk h
      rw [AMap.get_insert] at h
      split at h
      · rename_i he
        cases h
        rw [he]
        exact hm q.1 q.2 (by simp)
      · exact hp k sk h)
    refine ⟨this.1, fun k hk => this.2 k ?_⟩
    unfold AMap.contains at hk ⊢
    rw [AMap.get_insert]
    split
    · rfl
    · exact hk

theorem pairs_fold {pk : Secret → Key} : ∀ (others : List Secret) (m : AMap Key Secret),
    (∀ k sk, AMap.get m k = some sk → pk sk = k) →
    (∀ k sk, AMap.get (others.foldl (fun m sk => AMap.insert m (pk sk) sk) m) k = some sk → pk sk = k) ∧
    (∀ k, AMap.contains m k = true → AMap.contains (others.foldl (fun m sk => AMap.insert m (pk sk) sk) m) k = true) := by
  intro others
  induction others with
  | nil => intro m h; exact ⟨h, fun _ h => h⟩
  | cons o others ih =>
    intro m h
    have := ih (AMap.insert m (pk o) o) (by
      intro k sk hk
      rw [AMap.get_insert] at hk
      split at hk
      · rename_i he
        cases hk
        exact he.symm
      · exact h k sk hk)
    refine ⟨this.1, fun k hk => this.2 k ?_⟩
    unfold AMap.contains at hk ⊢
    rw [AMap.get_insert]
    split
    · rfl
    · exact hk

theorem Device.inv {H : KeyOp → Nat} {valid : KeyOp → Bool} {pk : Secret → Key} {S : Body → Option KeyOp} {me : Id}
    (hS : SignsFor valid me S) {a : Active} (h : Device H valid pk S me a) :
    (∀ k sk, AMap.get a.pairs k = some sk → pk sk = k) ∧ ∀ k ∈ a.indie.prekeys, AMap.contains a.pairs k = true := by
  induction h with
  | generate init others h =>
    unfold Active.generate at h
    split at h
    · cases h
    · rename_i op hop
      cases hs : Active.signAdds S (AMap.keys (others.foldl (fun m sk => AMap.insert m (pk sk) sk)
          (AMap.insert [] (pk init) init))) with
      | error e => simp only [hs, bind, Except.bind] at h; cases h
      | ok ops =>
        simp only [hs, bind, Except.bind] at h
        cases he : (State.new H op).extend H valid ops with
        | error e => simp only [he] at h; cases h
        | ok s =>
          simp only [he] at h
          cases h
          obtain ⟨p1, p2⟩ := pairs_fold (pk := pk) others (AMap.insert [] (pk init) init) (by
            intro k sk hk
            rw [AMap.get_insert] at hk
            split at hk
            · rename_i hc
              cases hk
              exact hc.symm
            · simp at hk)
          refine ⟨p1, fun k hk => ?_⟩
          rw [State.mem_build] at hk
          obtain ⟨o, ho, hk⟩ := (introduced_iff _ _).1 hk.1
          rcases extend_values he o ho with h1 | h1
          · rcases Registry.values_insert (m := []) h1 with rfl | h1
            · have := (hS _ _ hop).1
              apply p2
              have hk' : k = pk init := by rw [← hk]; simp [KeyOp.newKey, this]
              simp [AMap.contains, hk']
            · simp [AMap.values] at h1
          · obtain ⟨k', hk', e⟩ := signAdds_ok hs o h1
            have := (hS _ _ e).1
            have : k = k' := by rw [← hk]; simp [KeyOp.newKey, this]
            rw [this]
            exact (AMap.contains_iff _ _).2 hk'
  | rotate old sk _ hr ih =>
    unfold Active.rotatePrekey at hr
    split at hr
    · cases hr
    · cases hr
      refine ⟨fun k s hk => ?_, fun k hk => ?_⟩
      · rw [AMap.get_insert] at hk
        split at hk
        · rename_i hc
          cases hk
          exact hc.symm
        · exact ih.1 k s hk
      · simp only [Indie.rotate, mem_sinsert, mem_sremove] at hk
        unfold AMap.contains
        rw [AMap.get_insert]
        split
        · rfl
        · rename_i hc
          rcases hk with hk | hk
          · exact absurd hk hc
          · exact ih.2 k hk.2
  | expand sk _ hr ih =>
    unfold Active.expandPrekeys at hr
    split at hr
    · cases hr
    · cases hr
      refine ⟨fun k s hk => ?_, fun k hk => ?_⟩
      · rw [AMap.get_insert] at hk
        split at hk
        · rename_i hc
          cases hk
          exact hc.symm
        · exact ih.1 k s hk
      · simp only [Indie.expand, mem_sinsert] at hk
        unfold AMap.contains
        rw [AMap.get_insert]
        split
        · rfl
        · rename_i hc
          rcases hk with hk | hk
          · exact absurd hk hc
          · exact ih.2 k hk
  | importSecrets m hm _ ih =>
    obtain ⟨p1, p2⟩ := import_good hm ih.1
    exact ⟨p1, fun k hk => p2 k (ih.2 k hk)⟩

end Verif.Prekey
