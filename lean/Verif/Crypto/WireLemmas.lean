import Verif.Crypto.Wire
import Mathlib.Data.List.Basic

/-! # What the bytes of a value tell: nothing is lost, and where it ends is known -/

namespace Verif.Wire

/-- What was written can be told apart from what follows it. -/
def Reads {α : Type} (f : α → Bytes) : Prop := ∀ a b x y, f a ++ x = f b ++ y → a = b ∧ x = y

theorem length_le (n v : Nat) : (le n v).length = n := by
  induction n generalizing v with
  | zero => rfl
  | succ n ih => simp [le, ih]

theorem le_inj (n : Nat) : ∀ {v w : Nat}, v < 256 ^ n → w < 256 ^ n → le n v = le n w → v = w := by
  induction n with
  | zero =>
    intro v w hv hw _
    simp at hv hw
    omega
  | succ n ih =>
    intro v w hv hw h
    rw [Nat.pow_succ] at hv hw
    unfold le at h
    injection h with h1 h2
    have h3 := ih (v := v / 256) (w := w / 256) (Nat.div_lt_of_lt_mul (by omega)) (Nat.div_lt_of_lt_mul (by omega)) h2
    have h4 : v % 256 = w % 256 := by
      have := congrArg UInt8.toNat h1
      simpa using this
    have := Nat.div_add_mod v 256
    have := Nat.div_add_mod w 256
    omega

/-- Things written in the same number of bytes. -/
theorem reads_fixed {α : Type} {f : α → Bytes} (n : Nat) (hl : ∀ a, (f a).length = n) (hi : ∀ a b, f a = f b → a = b) : Reads f := by
  intro a b x y h
  have h1 := List.append_inj h (by rw [hl, hl])
  exact ⟨hi a b h1.1, h1.2⟩

theorem reads_u32 : Reads u32 := by
  refine reads_fixed 4 (fun a => length_le _ _) (fun a b h => ?_)
  have := le_inj 4 (by have := a.toNat_lt; omega) (by have := b.toNat_lt; omega) h
  exact UInt32.toNat_inj.mp this

theorem reads_arr {n : Nat} : Reads (arr (n := n)) := reads_fixed n (fun a => a.2) (fun a b h => Subtype.ext h)

theorem reads_byte : Reads byte := reads_fixed 1 (fun _ => rfl) (fun a b h => by injection h)

theorem reads_name : Reads name := by
  refine reads_fixed 40 (fun a => by simp [name, length_le, a.2]) (fun a b h => ?_)
  exact Subtype.ext (List.append_cancel_left h)

theorem reads_opt {α : Type} {f : α → Bytes} (hf : Reads f) : Reads (opt f) := by
  intro a b x y h
  cases a <;> cases b <;> simp only [opt, List.cons_append, List.nil_append, List.cons.injEq] at h
  · exact ⟨rfl, h.2⟩
  · exact absurd h.1 (by decide)
  · exact absurd h.1 (by decide)
  · obtain ⟨h1, h2⟩ := hf _ _ _ _ h.2
    exact ⟨congrArg some h1, h2⟩

theorem reads_pair {α β : Type} {f : α → Bytes} {g : β → Bytes} (hf : Reads f) (hg : Reads g) : Reads (pair f g) := by
  intro a b x y h
  simp only [pair, List.append_assoc] at h
  obtain ⟨h1, h2⟩ := hf _ _ _ _ h
  obtain ⟨h3, h4⟩ := hg _ _ _ _ h2
  exact ⟨Prod.ext h1 h3, h4⟩

theorem reads_list {α : Type} {f : α → Bytes} (hf : Reads f) : ∀ (l m : List α) (x y : Bytes), l.length = m.length →
    l.flatMap f ++ x = m.flatMap f ++ y → l = m ∧ x = y
  | [], [], _, _, _, h => ⟨rfl, h⟩
  | a :: l, b :: m, x, y, hl, h => by
    simp only [List.flatMap_cons, List.append_assoc] at h
    obtain ⟨h1, h2⟩ := hf _ _ _ _ h
    obtain ⟨h3, h4⟩ := reads_list hf l m x y (by simpa using hl) h2
    exact ⟨by rw [h1, h3], h4⟩
  | [], _ :: _, _, _, hl, _ => absurd hl (by simp)
  | _ :: _, [], _, _, hl, _ => absurd hl (by simp)

theorem reads_vec {α : Type} {f : α → Bytes} (hf : Reads f) : Reads (vec f) := by
  intro a b x y h
  simp only [vec, List.append_assoc] at h
  have h1 := List.append_inj h (by rw [length_le, length_le])
  have h2 := le_inj 8 (by have := a.2; omega) (by have := b.2; omega) h1.1
  obtain ⟨h3, h4⟩ := reads_list hf _ _ _ _ h2 h1.2
  exact ⟨Subtype.ext h3, h4⟩

theorem access_inj {a b : Access} (h : access a = access b) : a = b := by
  cases a <;> cases b <;> first | rfl | exact absurd h (by decide)

theorem reads_access : Reads (fun a => u32 (access a)) := fun a b x y h =>
  ⟨access_inj (reads_u32 _ _ _ _ h).1, (reads_u32 _ _ _ _ h).2⟩

theorem reads_content {T : Type} {c : T → Bytes} (hc : Reads c) : Reads (content c) :=
  reads_vec (reads_pair reads_name (reads_vec hc))

theorem reads_delegation {T : Type} {c : T → Bytes} (hc : Reads c) : Reads (Delegation.bytes c) := by
  intro a b x y h
  simp only [Delegation.bytes, List.append_assoc] at h
  obtain ⟨h1, h⟩ := reads_access _ _ _ _ h
  obtain ⟨h2, h⟩ := reads_opt reads_arr _ _ _ _ h
  obtain ⟨h3, h⟩ := reads_name _ _ _ _ h
  obtain ⟨h4, h⟩ := reads_vec reads_arr _ _ _ _ h
  obtain ⟨h5, h⟩ := reads_content hc _ _ _ _ h
  cases a; cases b
  simp_all

theorem reads_revocation {T : Type} {c : T → Bytes} (hc : Reads c) : Reads (Revocation.bytes c) := by
  intro a b x y h
  simp only [Revocation.bytes, List.append_assoc] at h
  obtain ⟨h1, h⟩ := reads_arr _ _ _ _ h
  obtain ⟨h2, h⟩ := reads_opt reads_arr _ _ _ _ h
  obtain ⟨h3, h⟩ := reads_content hc _ _ _ _ h
  cases a; cases b
  simp_all

theorem reads_nodeKey : Reads NodeKey.bytes := by
  intro a b x y h
  cases a <;> cases b <;> simp only [NodeKey.bytes, List.append_assoc] at h <;> obtain ⟨h0, h⟩ := reads_u32 _ _ _ _ h
  · obtain ⟨h1, h⟩ := reads_arr _ _ _ _ h
    exact ⟨by rw [h1], h⟩
  · exact absurd h0 (by decide)
  · exact absurd h0 (by decide)
  · obtain ⟨h1, h⟩ := reads_arr _ _ _ _ h
    obtain ⟨h2, h⟩ := reads_arr _ _ _ _ h
    obtain ⟨h3, h⟩ := reads_vec reads_arr _ _ _ _ h
    exact ⟨by rw [h1, h2, h3], h⟩

theorem reads_nodeIndex : Reads NodeIndex.bytes := by
  intro a b x y h
  cases a <;> cases b <;> simp only [NodeIndex.bytes, List.append_assoc] at h <;> obtain ⟨h0, h⟩ := reads_u32 _ _ _ _ h
  · obtain ⟨h1, h⟩ := reads_u32 _ _ _ _ h
    exact ⟨by rw [h1], h⟩
  · exact absurd h0 (by decide)
  · exact absurd h0 (by decide)
  · obtain ⟨h1, h⟩ := reads_u32 _ _ _ _ h
    exact ⟨by rw [h1], h⟩

theorem reads_encrypted : Reads Encrypted.bytes := by
  intro a b x y h
  simp only [Encrypted.bytes, List.append_assoc] at h
  obtain ⟨h1, h⟩ := reads_arr _ _ _ _ h
  obtain ⟨h2, h⟩ := reads_vec reads_byte _ _ _ _ h
  obtain ⟨h3, h⟩ := reads_arr _ _ _ _ h
  cases a; cases b
  simp_all

theorem reads_version : Reads Version.bytes := by
  intro a b x y h
  simp only [Version.bytes, List.append_assoc] at h
  obtain ⟨h1, h⟩ := reads_arr _ _ _ _ h
  obtain ⟨h2, h⟩ := reads_vec (reads_pair reads_nodeIndex reads_encrypted) _ _ _ _ h
  obtain ⟨h3, h⟩ := reads_arr _ _ _ _ h
  cases a; cases b
  simp_all

theorem reads_path : Reads PathChange.bytes := by
  intro a b x y h
  simp only [PathChange.bytes, List.append_assoc] at h
  obtain ⟨h1, h⟩ := reads_name _ _ _ _ h
  obtain ⟨h2, h⟩ := reads_u32 _ _ _ _ h
  obtain ⟨h3, h⟩ := reads_nodeKey _ _ _ _ h
  obtain ⟨h4, h⟩ := reads_vec (reads_pair reads_u32 (reads_vec reads_version)) _ _ _ _ h
  obtain ⟨h5, h⟩ := reads_vec reads_arr _ _ _ _ h
  cases a; cases b
  simp_all

theorem reads_cgka : Reads CgkaOp.bytes := by
  intro a b x y h
  cases a <;> cases b <;> simp only [CgkaOp.bytes, List.append_assoc] at h <;> obtain ⟨h0, h⟩ := reads_u32 _ _ _ _ h <;>
    first
    | exact absurd h0 (by decide)
    | obtain ⟨h1, h⟩ := reads_name _ _ _ _ h
  · obtain ⟨h2, h⟩ := reads_arr _ _ _ _ h
    obtain ⟨h3, h⟩ := reads_u32 _ _ _ _ h
    obtain ⟨h4, h⟩ := reads_vec reads_arr _ _ _ _ h
    obtain ⟨h5, h⟩ := reads_vec reads_arr _ _ _ _ h
    obtain ⟨h6, h⟩ := reads_name _ _ _ _ h
    exact ⟨by rw [h1, h2, h3, h4, h5, h6], h⟩
  · obtain ⟨h2, h⟩ := reads_u32 _ _ _ _ h
    obtain ⟨h3, h⟩ := reads_vec reads_arr _ _ _ _ h
    obtain ⟨h4, h⟩ := reads_vec reads_arr _ _ _ _ h
    obtain ⟨h5, h⟩ := reads_name _ _ _ _ h
    exact ⟨by rw [h1, h2, h3, h4, h5], h⟩
  · obtain ⟨h2, h⟩ := reads_path _ _ _ _ h
    obtain ⟨h3, h⟩ := reads_vec reads_arr _ _ _ _ h
    obtain ⟨h4, h⟩ := reads_name _ _ _ _ h
    exact ⟨by rw [h1, h2, h3, h4], h⟩

theorem Reads.inj {α : Type} {f : α → Bytes} (h : Reads f) {a b : α} (e : f a = f b) : a = b :=
  (h a b [] [] (by rw [e])).1

/-! ## Lengths and beginnings -/

theorem length_arr {n : Nat} (a : Arr n) : (arr a).length = n := a.2

theorem length_name (a : Arr 32) : (name a).length = 40 := by simp [name, length_le, a.2]

theorem length_vec_arr (v : Vec (Arr 32)) : (vec arr v).length = 8 + 32 * v.val.length := by
  have : ∀ l : List (Arr 32), (l.flatMap arr).length = 32 * l.length := by
    intro l
    induction l with
    | nil => rfl
    | cons a l ih => simp only [List.flatMap_cons, List.length_append, ih, length_arr, List.length_cons]; omega
  simp [vec, length_le, this]

theorem length_vec {α : Type} (f : α → Bytes) (v : Vec α) : 8 ≤ (vec f v).length := by
  simp [vec, length_le]

theorem length_content {T : Type} (c : T → Bytes) (m : Vec (Arr 32 × Vec T)) : (content c m).length = 8 ∨ 56 ≤ (content c m).length := by
  obtain ⟨l, hl⟩ := m
  cases l with
  | nil => left; simp [content, vec, length_le]
  | cons p l =>
    right
    have := length_vec c p.2
    simp only [content, vec, List.flatMap_cons, List.length_append, length_le, pair, length_name] at this ⊢
    omega

theorem length_opt (o : Option (Arr 32)) : (opt arr o).length = 1 ∨ (opt arr o).length = 33 := by
  cases o with
  | none => left; rfl
  | some a => right; simp [opt, length_arr]

theorem length_delegation {T : Type} (c : T → Bytes) (d : Delegation T) :
    (d.bytes c).length = 61 ∨ 93 ≤ (d.bytes c).length := by
  have h1 := length_content c d.afterContent
  have h2 := length_opt d.proof
  have h3 := length_vec_arr d.afterRevocations
  simp only [Delegation.bytes, u32, List.length_append, length_le, length_name]
  omega

theorem length_revocation {T : Type} (c : T → Bytes) (r : Revocation T) :
    (r.bytes c).length = 41 ∨ 73 ≤ (r.bytes c).length := by
  have h1 := length_content c r.afterContent
  have h2 := length_opt r.proof
  simp only [Revocation.bytes, List.length_append, length_arr]
  omega

theorem length_cgka (o : CgkaOp) : 100 ≤ o.bytes.length := by
  cases o with
  | add i pk l ps aps d =>
    have h1 := length_vec_arr ps
    have h2 := length_vec_arr aps
    simp only [CgkaOp.bytes, u32, List.length_append, length_le, length_name, length_arr]
    omega
  | remove i l ks ps d =>
    have h1 := length_vec_arr ks
    have h2 := length_vec_arr ps
    simp only [CgkaOp.bytes, u32, List.length_append, length_le, length_name]
    omega
  | update i p ps d =>
    have h1 := length_vec_arr ps
    simp only [CgkaOp.bytes, PathChange.bytes, u32, List.length_append, length_le, length_name]
    omega

theorem u32_access (a : Access) : u32 (access a) = [UInt8.ofNat a.idx, 0, 0, 0] := by
  cases a <;> decide +kernel

theorem name_eq (k : Arr 32) : name k = 32 :: 0 :: 0 :: 0 :: 0 :: 0 :: 0 :: 0 :: k.val := by
  have : le 8 32 = [32, 0, 0, 0, 0, 0, 0, 0] := by decide +kernel
  rw [name, this]
  rfl

/-- How a delegation begins. -/
theorem head_delegation {T : Type} (c : T → Bytes) (d : Delegation T) :
    (∃ x, d.bytes c = [UInt8.ofNat d.can.idx, 0, 0, 0, 0, 32, 0, 0, 0, 0, 0, 0, 0] ++ x) ∨
      ∃ x, d.bytes c = [UInt8.ofNat d.can.idx, 0, 0, 0, 1] ++ x := by
  unfold Delegation.bytes
  rw [u32_access]
  cases d.proof with
  | none =>
    left
    rw [name_eq]
    exact ⟨_, rfl⟩
  | some p => exact .inr ⟨_, rfl⟩

/-- How a group-key operation begins. -/
theorem head_cgka (o : CgkaOp) : ∃ b ∈ ([0, 1, 2] : Bytes), ∃ x, o.bytes = [b, 0, 0, 0, 32, 0, 0, 0, 0, 0, 0, 0] ++ x := by
  have h0 : u32 0 = [0, 0, 0, 0] := by decide +kernel
  have h1 : u32 1 = [1, 0, 0, 0] := by decide +kernel
  have h2 : u32 2 = [2, 0, 0, 0] := by decide +kernel
  cases o with
  | add => exact ⟨0, by decide, _, by rw [CgkaOp.bytes, h0, name_eq]; rfl⟩
  | remove => exact ⟨1, by decide, _, by rw [CgkaOp.bytes, h1, name_eq]; rfl⟩
  | update => exact ⟨2, by decide, _, by rw [CgkaOp.bytes, h2, name_eq]; rfl⟩

end Verif.Wire
