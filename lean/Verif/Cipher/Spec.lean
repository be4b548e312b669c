import Verif.Cipher.Model

/-! # What the properties of the ciphertext store and of causal decryption say -/

namespace Verif.Cipher

/-- A call that changes the store. -/
inductive Cmd where
  | insert (c : Ct)
  | remove (digest : Nat)
  | removeAll (r : Ref)
deriving DecidableEq, Repr

/-- What a call does to the store. -/
def Cmd.run (H : Ct → Nat) (s : Store) : Cmd → Store
  | .insert c => s.insert H c
  | .remove d => (s.remove d).1
  | .removeAll r => (s.removeAll r).1

/-- The store after a sequence of calls. -/
def runAll (H : Ct → Nat) (cmds : List Cmd) : Store := cmds.foldl (Cmd.run H) Store.new

/-- What a call does to the set of ciphertexts that were inserted and not removed. -/
def Cmd.live (H : Ct → Nat) (l : List Ct) : Cmd → List Ct
  | .insert c => c :: l
  | .remove d => l.filter (fun c => decide (H c ≠ d))
  | .removeAll r => l.filter (fun c => decide (c.ref ≠ r))

/-- The ciphertexts that were inserted and not removed. -/
def live (H : Ct → Nat) (cmds : List Cmd) : List Ct := cmds.foldl (Cmd.live H) []

/-- The ciphertexts that were ever inserted. -/
def inserted (cmds : List Cmd) : List Ct := cmds.filterMap (fun | .insert c => some c | _ => none)

/-- No single ciphertext is removed, or no two ciphertexts are for the same content under the same update. -/
def RemovalsUnambiguous (cmds : List Cmd) : Prop :=
  (∀ d, Cmd.remove d ∉ cmds) ∨ ∀ c ∈ inserted cmds, ∀ c' ∈ inserted cmds, c.ref = c'.ref → c.op = c'.op → c = c'

/-- What causal decryption can get at: what it starts from, and the ciphertexts named in envelopes it can open. -/
inductive Reach (get : Ref → Got) (opened : Ct → Key → Opened) (start : List (Ct × Key)) : Ct → Key → Prop
  | start {c : Ct} {k : Key} (h : (c, k) ∈ start) : Reach get opened start c k
  | step {c c' : Ct} {k k' : Key} {e : Envelope} {r : Ref} (h : Reach get opened start c k) (ho : opened c k = .envelope e)
      (ha : (r, k') ∈ e.ancestors) (hg : get r = .found c') : Reach get opened start c' k'

/-- The store never fails, has finitely many ciphertexts, and finds them under their own reference. -/
structure Reliable (get : Ref → Got) : Prop where
  noError : ∀ r, get r ≠ .error
  own : ∀ r c, get r = .found c → c.ref = r
  finite : ∃ rs : List Ref, ∀ r c, get r = .found c → r ∈ rs

/-- Whatever can be reached for one reference opens to one envelope. -/
def OneEnvelope (get : Ref → Got) (opened : Ct → Key → Opened) (start : List (Ct × Key)) : Prop :=
  ∀ c k e c' k' e', Reach get opened start c k → Reach get opened start c' k' → c.ref = c'.ref →
    opened c k = .envelope e → opened c' k' = .envelope e' → e = e'

/-- The reason why something reached is reported as impossible: the key does not open it, what it opens to is no envelope, or an
ancestor named in its envelope could not be looked up. -/
def Explains (get : Ref → Got) (opened : Ct → Key → Opened) (c : Ct) (k : Key) : Reason → Prop
  | .decryption k' => k' = k ∧ opened c k = .failed
  | .deserialization => opened c k = .garbage
  | .getCiphertext => ∃ e r k', opened c k = .envelope e ∧ (r, k') ∈ e.ancestors ∧ get r = .error
  | .markDecrypted => False

end Verif.Cipher
