import Verif.Crypto.WireSpec
import Verif.Prekey.Lemmas

/-! # Properties of what a signature stands for -/

namespace Verif.Wire

/-! ## C110: a signature stands for the one statement that was signed -/

variable {T : Type} {c : T → Bytes}

theorem revocation_begins (r : Revocation T) {p x : Bytes} (h : r.bytes c = p ++ x) (hp : p.length ≤ 32) : p <+: r.revoke.val := by
  have h1 : r.revoke.val <+: p ++ x := by
    rw [← h]
    exact ⟨_, rfl⟩
  exact List.prefix_of_prefix_length_le (List.prefix_append p x) h1 (by rw [r.revoke.2]; exact hp)

theorem not_delegation_revocation {d : Delegation T} {r : Revocation T} (hr : ¬ Mimics r.revoke) (h : d.bytes c = r.bytes c) : False := by
  have hb : UInt8.ofNat d.can.idx ∈ ([0, 1, 2, 3] : Bytes) := by cases d.can <;> decide
  rcases head_delegation c d with ⟨x, hx⟩ | ⟨x, hx⟩
  · exact hr ⟨_, hb, .inl (revocation_begins r (h.symm.trans hx) (by simp))⟩
  · exact hr ⟨_, hb, .inr (.inl (revocation_begins r (h.symm.trans hx) (by simp)))⟩

theorem not_cgka_revocation {o : CgkaOp} {r : Revocation T} (hr : ¬ Mimics r.revoke) (h : o.bytes = r.bytes c) : False := by
  obtain ⟨b, hb, x, hx⟩ := head_cgka o
  have hb' : b ∈ ([0, 1, 2, 3] : Bytes) := by
    simp only [List.mem_cons, List.not_mem_nil, or_false] at hb ⊢
    rcases hb with h | h | h <;> simp [h]
  exact hr ⟨b, hb', .inr (.inr (revocation_begins r (h.symm.trans hx) (by simp)))⟩

theorem not_delegation_cgka {d : Delegation T} {o : CgkaOp} (h : d.bytes c = o.bytes) : False := by
  obtain ⟨b, hb, x, hx⟩ := head_cgka o
  rcases head_delegation c d with ⟨y, hy⟩ | ⟨y, hy⟩ <;>
  · rw [hx, hy] at h
    simp only [List.cons_append, List.cons.injEq] at h
    exact absurd h.2.2.2.2.1 (by decide)

theorem own_inj (hc : Reads c) {a b : Statement T} (ha : a.IsOwn) (hb : b.IsOwn) (hra : ∀ r, a = .revocation r → ¬ Mimics r.revoke)
    (hrb : ∀ r, b = .revocation r → ¬ Mimics r.revoke) (h : a.bytes c = b.bytes c) : a = b := by
  have hl := congrArg List.length h
  cases a with
  | message => exact ha.elim
  | prekey k =>
    cases b with
    | message => exact hb.elim
    | prekey k' => exact congrArg _ (reads_arr.inj h)
    | rotation => simp [Statement.bytes, length_arr] at hl
    | delegation d => have := length_delegation c d; simp only [Statement.bytes, length_arr] at hl; omega
    | revocation r => have := length_revocation c r; simp only [Statement.bytes, length_arr] at hl; omega
    | groupKey o => have := length_cgka o; simp only [Statement.bytes, length_arr] at hl; omega
  | rotation x y =>
    cases b with
    | message => exact hb.elim
    | prekey k' => simp [Statement.bytes, length_arr] at hl
    | rotation x' y' =>
      obtain ⟨h1, h2⟩ := reads_arr _ _ _ _ h
      rw [h1, reads_arr.inj h2]
    | delegation d => have := length_delegation c d; simp only [Statement.bytes, List.length_append, length_arr] at hl; omega
    | revocation r => have := length_revocation c r; simp only [Statement.bytes, List.length_append, length_arr] at hl; omega
    | groupKey o => have := length_cgka o; simp only [Statement.bytes, List.length_append, length_arr] at hl; omega
  | delegation d =>
    have := length_delegation c d
    cases b with
    | message => exact hb.elim
    | prekey k' => simp only [Statement.bytes, length_arr] at hl; omega
    | rotation => simp only [Statement.bytes, List.length_append, length_arr] at hl; omega
    | delegation d' => exact congrArg _ ((reads_delegation hc).inj h)
    | revocation r => exact (not_delegation_revocation (hrb r rfl) h).elim
    | groupKey o => exact (not_delegation_cgka h).elim
  | revocation r =>
    have := length_revocation c r
    cases b with
    | message => exact hb.elim
    | prekey k' => simp only [Statement.bytes, length_arr] at hl; omega
    | rotation => simp only [Statement.bytes, List.length_append, length_arr] at hl; omega
    | delegation d' => exact (not_delegation_revocation (hra r rfl) h.symm).elim
    | revocation r => exact congrArg _ ((reads_revocation hc).inj h)
    | groupKey o => exact (not_cgka_revocation (hra r rfl) h.symm).elim
  | groupKey o =>
    have := length_cgka o
    cases b with
    | message => exact hb.elim
    | prekey k' => simp only [Statement.bytes, length_arr] at hl; omega
    | rotation => simp only [Statement.bytes, List.length_append, length_arr] at hl; omega
    | delegation d' => exact (not_delegation_cgka h.symm).elim
    | revocation r => exact (not_cgka_revocation (hrb r rfl) h).elim
    | groupKey o' => exact congrArg _ (reads_cgka.inj h)

theorem length_bytes (l : Bytes) : (l.flatMap byte).length = l.length := by
  induction l with
  | nil => rfl
  | cons a l ih => simp [byte, ih]

/-- The first eight bytes of a message of less than four gigabytes. -/
theorem head_message (m : Vec UInt8) (hm : m.val.length < 2 ^ 32) : ∃ a b d e x, vec byte m = [a, b, d, e, 0, 0, 0, 0] ++ x := by
  have h : m.val.length / 256 / 256 / 256 / 256 = 0 := by omega
  refine ⟨UInt8.ofNat m.val.length, UInt8.ofNat (m.val.length / 256), UInt8.ofNat (m.val.length / 256 / 256),
    UInt8.ofNat (m.val.length / 256 / 256 / 256), m.val.flatMap byte, ?_⟩
  simp only [vec, le, h]
  rfl

theorem message_own {m : Vec UInt8} {t : Statement T} (ht : t.IsOwn) (hm : Harmless m t) (h : vec byte m = t.bytes c) : False := by
  obtain ⟨h1, h2, h3, h4⟩ := hm
  obtain ⟨a, b, d, e, x, hx⟩ := head_message m h3
  have hl := congrArg List.length h
  have hv : (vec byte m).length = 8 + m.val.length := by simp only [vec, List.length_append, length_le, length_bytes]
  cases t with
  | message => exact ht.elim
  | prekey k => simp only [Statement.bytes, length_arr] at hl; omega
  | rotation => simp only [Statement.bytes, List.length_append, length_arr] at hl; omega
  | delegation s =>
    rw [hx] at h
    rcases head_delegation c s with ⟨y, hy⟩ | ⟨y, hy⟩ <;> rw [Statement.bytes, hy] at h <;>
      simp only [List.cons_append, List.cons.injEq] at h
    · exact absurd h.2.2.2.2.2.1 (by decide)
    · exact absurd h.2.2.2.2.1 (by decide)
  | groupKey o =>
    rw [hx] at h
    obtain ⟨g, _, y, hy⟩ := head_cgka o
    rw [Statement.bytes, hy] at h
    simp only [List.cons_append, List.cons.injEq] at h
    exact absurd h.2.2.2.2.1 (by decide)
  | revocation r => exact h4 r rfl (revocation_begins r h.symm (by rw [length_le]; decide))

/-- C110: whatever a user has signed (prekeys, rotations, delegations, revocations, group-key operations and messages of the application),
a statement of keyhive's that verifies under their key is one that they made: a signature under one statement is not good for another
statement of the same kind nor of another kind. Missing: the bytes say nothing of the kind. So the messages must not be 24 or 56 bytes long
(`C110_fails`), and digests must not come out like the beginning of another statement. -/
theorem C110_partial (hc : Reads c) {verify : Nat → Bytes → Nat → Bool} {key : Nat} {made : Statement T → Prop}
    (hu : OnlySigned c verify key made) (htell : Telling made) {t : Statement T} (ht : t.IsOwn) (htt : Telling (· = t))
    (hm : ∀ m, made (.message m) → Harmless m t) {s : Nat}
    (hv : (Signed.Signed.read t key s).verifies (Statement.bytes c) verify = true) : made t := by
  obtain ⟨m, hmade, hb⟩ := hu _ _ hv
  by_cases ho : m.IsOwn
  · have : m = t := own_inj hc ho ht (fun r hr => htell r (hr ▸ hmade)) (fun r hr => htt r hr.symm) hb
    exact this ▸ hmade
  · cases m with
    | message m => exact (message_own ht (hm m hmade) hb).elim
    | _ => exact absurd trivial ho

/-- … and if they have signed nothing but messages, a message that verifies is one of these. -/
theorem C110_message {verify : Nat → Bytes → Nat → Bool} {key : Nat} {made : Statement T → Prop}
    (hu : OnlySigned c verify key made) (hm : ∀ m, made m → ¬ m.IsOwn) {t : Vec UInt8} {s : Nat}
    (hv : (Signed.Signed.read (.message t) key s).verifies (Statement.bytes c) verify = true) : made (.message t) := by
  obtain ⟨m, hmade, hb⟩ := hu _ _ hv
  cases m with
  | message m => exact (reads_vec reads_byte).inj hb ▸ hmade
  | _ => exact absurd trivial (hm _ hmade)

namespace Sample

/-- Content references are numbers below 2³². -/
abbrev ref : UInt32 → Bytes := u32

/-- A delegation to edit, with a proof, that names content. -/
def dlg : Statement UInt32 :=
  .delegation ⟨.edit, some (ofNum 900), ofNum 17, ⟨[ofNum 901], by decide⟩, ⟨[(ofNum 30, ⟨[7, 8], by decide⟩)], by decide⟩⟩
/-- The revocation of a delegation whose digest writes 902. -/
def rev : Statement UInt32 := .revocation ⟨ofNum 902, some (ofNum 900), ⟨[], by decide⟩⟩
/-- A message of three bytes. -/
def msg : Vec UInt8 := ⟨[1, 2, 3], by decide⟩
/-- A user who has signed the delegation, the revocation, a prekey, and the message. -/
def signed : List (Statement UInt32) := [dlg, rev, .prekey (ofNum 77), .message msg]
/-- Signatures of theirs verify for what they have signed. -/
def check (key : Nat) (b : Bytes) (_ : Nat) : Bool := key == 5 && (signed.map (Statement.bytes ref)).contains b

theorem check_only : OnlySigned ref check 5 (· ∈ signed) := by
  intro b s h
  simp only [check, Bool.and_eq_true, List.contains_iff_mem] at h
  obtain ⟨m, hm, he⟩ := List.mem_map.1 h.2
  exact ⟨m, hm, he⟩

theorem plain : ¬ Mimics (ofNum 902) := by
  rintro ⟨b, hb, h⟩
  simp only [List.mem_cons, List.not_mem_nil, or_false] at hb
  rcases hb with rfl | rfl | rfl | rfl <;> revert h <;> decide +kernel

theorem telling : Telling (T := UInt32) (· ∈ signed) := by
  intro r hr
  simp only [signed, List.mem_cons, List.not_mem_nil, or_false, dlg, rev, reduceCtorEq, false_or] at hr
  injection hr with hr
  subst hr
  exact plain

/-- All the hypotheses hold for the four statements, and the delegation verifies. -/
example : dlg ∈ signed :=
  C110_partial (c := ref) reads_u32 check_only telling (t := dlg) trivial (fun r hr => by cases hr)
    (fun m hm => by
      simp only [signed, List.mem_cons, List.not_mem_nil, or_false, dlg, rev, reduceCtorEq, false_or] at hm
      injection hm with hm
      subst hm
      exact ⟨by decide, by decide, by decide, fun r hr => by cases hr⟩)
    (s := 0) (by decide +kernel)

/-- The revocation verifies too. -/
example : (Signed.Signed.read rev 5 0).verifies (Statement.bytes ref) check = true ∧ ¬ le 8 msg.val.length <+: (ofNum 902).val := by
  decide +kernel

/-- A user who signs a message of two bytes only. -/
example : (fun m : Statement UInt32 => m = .message ⟨[4, 5], by decide⟩) (.message ⟨[4, 5], by decide⟩) :=
  C110_message (c := ref) (key := 5) (verify := fun _ b _ => b == (Statement.message (T := UInt32) ⟨[4, 5], by decide⟩).bytes ref)
    (fun b s h => ⟨_, rfl, (beq_iff_eq.1 h).symm⟩) (fun m hm => by subst hm; exact id) (s := 0) (beq_self_eq_true _)

end Sample

theorem old_cases (n : Nat) : ∃ (old : Nat) (x : Bytes), old ≠ n ∧ x.length = 24 ∧
    le 32 old = le 8 56 ++ x := by
  by_cases h : n = 56
  · exact ⟨56 + 256 ^ 8, le 24 1, by omega, by decide, by decide +kernel⟩
  · exact ⟨56, le 24 0, fun e => h e.symm, by decide, by decide +kernel⟩

/-- C110 fails for messages: whoever gets a user to sign a certain message of 56 bytes has, for any share key of their choice, a rotation
of the user's prekeys to that key. Every device accepts it and from then on counts the key as one of the user's. -/
theorem C110_fails (verify : Nat → Bytes → Nat → Bool) (sign : Bytes → Nat) (i : Prekey.Indie)
    (hs : ∀ b, verify i.id b (sign b) = true) (H : Prekey.KeyOp → Nat) (n : Prekey.Key)
    (hr : ¬ Prekey.Retired (AMap.values i.state) n) :
    ∃ m : Vec UInt8, m.val.length = 56 ∧ ∃ old i', i.receive H (validKeyOp verify)
      ⟨i.id, sign ((Statement.message (T := Unit) m).bytes fun _ => []), .rotate old n⟩ = .ok i' ∧ n ∈ i'.prekeys := by
  obtain ⟨old, x, hne, hx, he⟩ := old_cases n
  have hl : (x ++ le 32 n).length = 56 := by rw [List.length_append, hx, length_le]
  refine ⟨⟨x ++ le 32 n, by rw [hl]; decide⟩, hl, old, ?_⟩
  have hbytes : (Statement.rotation (T := Unit) (ofNum old) (ofNum n)).bytes (fun _ => []) =
      (Statement.message (T := Unit) ⟨x ++ le 32 n, by rw [hl]; decide⟩).bytes fun _ => [] := by
    have hf : ∀ l : Bytes, l.flatMap byte = l := by
      intro l
      induction l with
      | nil => rfl
      | cons a l ih => rw [List.flatMap_cons, ih]; rfl
    simp only [Statement.bytes, arr, ofNum, vec, hl, hf, he, List.append_assoc]
  have hvalid : validKeyOp verify ⟨i.id, sign ((Statement.message (T := Unit) ⟨x ++ le 32 n, by rw [hl]; decide⟩).bytes
      fun _ => []), .rotate old n⟩ = true := by
    simp only [validKeyOp, Signed.Signed.verifies, Signed.Signed.read, hbytes]
    exact hs _
  refine ⟨_, by
    simp only [Prekey.Indie.receive, Prekey.State.insertOp, hvalid, if_true, ne_eq, not_true_eq_false, if_false]
    rfl, ?_⟩
  show n ∈ Prekey.State.build _
  rw [Prekey.State.mem_build]
  refine ⟨⟨_, List.mem_cons_self, .inr ⟨old, rfl⟩⟩, ?_⟩
  rintro ⟨o, ho, new, hb⟩
  rcases List.mem_cons.1 ho with rfl | ho
  · injection hb with h1 h2
    exact hne h1
  · refine hr ⟨o, ?_, new, hb⟩
    obtain ⟨p, hp, rfl⟩ := List.mem_map.1 ho
    exact List.mem_map.2 ⟨p, (List.mem_filter.1 hp).1, rfl⟩

/-- The hypotheses of `C110_fails` hold for an individual with one prekey whose signatures (here) only vouch for the length of what is signed. -/
example : ∃ (verify : Nat → Bytes → Nat → Bool) (sign : Bytes → Nat) (i : Prekey.Indie), (∀ b, verify i.id b (sign b) = true) ∧
    (∃ b s, verify i.id b s = false) ∧ i.prekeys = [77] ∧ ¬ Prekey.Retired (AMap.values i.state) 666 := by
  refine ⟨fun _ b s => s == b.length, fun b => b.length, Prekey.Indie.new (fun o => o.sig) ⟨5, 32, .add 77⟩, ?_, ⟨[], 1, by decide⟩,
    by decide +kernel, ?_⟩
  · intro b
    exact beq_self_eq_true _
  · rintro ⟨o, ho, new, hb⟩
    have : o = ⟨5, 32, .add 77⟩ := List.mem_singleton.1 ho
    subst this
    cases hb

end Verif.Wire
