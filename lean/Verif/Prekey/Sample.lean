import Verif.Prekey.Registry
import Mathlib.Data.Nat.Pairing

/-! # Concrete prekey histories for the examples and counterexamples -/

namespace Verif.Prekey.Sample

/-- A collision-free digest. -/
def code : Body → Nat
  | .add k => Nat.pair 0 k
  | .rotate a b => Nat.pair 1 (Nat.pair a b)

/-- A collision-free digest. -/
def H (o : KeyOp) : Nat := Nat.pair o.issuer (Nat.pair o.sig (code o.body))

theorem code_injective : Function.Injective code := by
  intro a b h
  cases a <;> cases b <;> simp_all [code]

theorem H_injective : Function.Injective H := by
  intro a b h
  cases a; cases b
  simp only [H, Nat.pair_eq_pair] at h
  obtain ⟨h1, h2, h3⟩ := h
  subst h1; subst h2
  rw [code_injective h3]

/-- The signature of an agent is its own number. -/
def valid (o : KeyOp) : Bool := decide (o.sig = o.issuer)

/-- The signer of an agent. -/
def sign (me : Id) (b : Body) : Option KeyOp := some ⟨me, me, b⟩

theorem signsFor (me : Id) : SignsFor valid me (sign me) := by
  intro b op h
  cases h
  exact ⟨rfl, rfl, by simp [valid]⟩

/-- Operations of agent 7. -/
def add (k : Key) : KeyOp := ⟨7, 7, .add k⟩
def rot (a b : Key) : KeyOp := ⟨7, 7, .rotate a b⟩

/-- What a replica looks like after receiving operations (refused ones are dropped). -/
def receiveAll (i : Indie) (ops : List KeyOp) : Indie :=
  ops.foldl (fun i op => match i.receive H valid op with | .ok i' => i' | .error _ => i) i

theorem history_receiveAll : ∀ (ops : List KeyOp) {i : Indie} {l : List KeyOp}, History H valid i l →
    (∀ o ∈ ops, o.issuer = i.id ∧ valid o = true) → History H valid (receiveAll i ops) (ops.reverse ++ l) := by
  intro ops
  induction ops with
  | nil => intro i l h _; exact h
  | cons o ops ih =>
    intro i l h ho
    obtain ⟨h1, h2⟩ := ho o (by simp)
    have hr : i.receive H valid o = .ok
        { i with state := (CaMap.insert H i.state o).1, prekeys := State.build (CaMap.insert H i.state o).1 } := by
      simp [Indie.receive, State.insertOp, h1, h2, bind, Except.bind, pure, Except.pure]
    have := ih (h.receive o hr) (fun o' ho' => ho o' (by simp [ho']))
    simpa [receiveAll, hr] using this

/-- An agent with two rotations that lead back to the start. -/
def cyclic : Indie := receiveAll (Indie.new H (add 1)) [rot 1 2, rot 2 1]

/-- An agent with `n` added keys. -/
def many (n : Nat) : Indie := receiveAll (Indie.new H (add 0)) ((List.range (n - 1)).map (fun k => add (k + 1)))

/-- Each rotation leads to a larger number. -/
def ascending (l : List KeyOp) : Bool :=
  l.all (fun o => match o.body with | .add _ => true | .rotate a b => decide (a < b))

theorem acyclic_of_ascending {l : List KeyOp} (h : ascending l = true) : Acyclic l := by
  refine ⟨id, fun o ho old new hb => ?_⟩
  have := List.all_eq_true.1 h o ho
  simpa [hb] using this

/-- A registry with the public agent 0, the active agent 5 and agent 7. -/
def registry : Registry :=
  { me := 5, pub := 0, membered := [(9, none)],
    indies := [(0, Indie.new H ⟨0, 0, .add 100⟩), (5, Indie.new H ⟨5, 5, .add 50⟩), (7, Indie.new H (add 1))] }

theorem registry_authentic : registry.Authentic valid := by
  refine ⟨fun id i h => ?_, fun id i h => ?_⟩
  · simp only [registry, AMap.get_cons] at h
    split at h
    · rename_i he; subst he; cases h; exact Registry.authentic_new H (by decide)
    · split at h
      · rename_i he; subst he; cases h; exact Registry.authentic_new H (by decide)
      · split at h
        · rename_i he; subst he; cases h; exact Registry.authentic_new H (by decide)
        · simp at h
  · simp only [registry, AMap.get_cons] at h
    split at h
    · cases h
    · simp at h

theorem registry_filed : registry.Filed := fun id i h => (registry_authentic.1 id i h).1

end Verif.Prekey.Sample
