import Mathlib.Tactic.DeriveCountable
import Mathlib.Data.Countable.Basic
import Mathlib.Data.List.Basic
import Mathlib.Logic.Equiv.List
import Verif.Cgka.Spec

/-! # Collision-free digests for the concrete histories in the examples

The theorems assume that `H` (`Digest::hash` on signed operations) is collision free. Such functions exist with any prescribed
values on finitely many operations, so the examples below are about genuine digests. -/

namespace Verif.Cgka

open Verif.BeeKem Verif.TreeMath

deriving instance Countable for TreeMath.TreeNodeIndex
deriving instance Countable for BeeKem.Pk
deriving instance Countable for BeeKem.SymKey
deriving instance Countable for BeeKem.EncryptedSecret
deriving instance Countable for BeeKem.NodeKey

instance {K V : Type} [Countable K] [Countable V] : Countable (AMap K V) := inferInstanceAs (Countable (List (K × V)))

deriving instance Countable for BeeKem.SecretStoreVersion
deriving instance Countable for BeeKem.SecretStore
deriving instance Countable for BeeKem.PathChange
deriving instance Countable for Payload
deriving instance Countable for SOp

/-- Some collision-free numbering of all signed operations. -/
noncomputable def number : SOp → Nat := Classical.choose (Countable.exists_injective_nat SOp)

theorem number_injective : Function.Injective number := Classical.choose_spec (Countable.exists_injective_nat SOp)

/-- The digest of each operation in `l` is its position; all others come after. -/
noncomputable def tableH (l : List SOp) (o : SOp) : Nat := if o ∈ l then l.idxOf o else l.length + number o

theorem tableH_injective (l : List SOp) : Function.Injective (tableH l) := by
  intro a b h
  unfold tableH at h
  split at h <;> split at h
  · rename_i ha hb
    exact (List.idxOf_inj ha).1 h
  · rename_i ha hb
    have := List.idxOf_lt_length_of_mem ha
    omega
  · rename_i ha hb
    have := List.idxOf_lt_length_of_mem hb
    omega
  · exact number_injective (by omega)

end Verif.Cgka
