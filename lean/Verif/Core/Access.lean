/-!
# Model of `keyhive_core/src/access.rs` and the `Access` bindings in
`keyhive_wasm/src/js/access.rs`
-/

namespace Verif

/-- `Access` — keyhive_core/src/access.rs:19-40, in declaration order. -/
inductive Access where
  | relay
  | read
  | edit
  | admin
deriving DecidableEq, Repr

namespace Access

/-- Constructor index used by the derived `PartialOrd`/`Ord` — access.rs:15-17. -/
def idx : Access → Nat
  | relay => 0
  | read => 1
  | edit => 2
  | admin => 3

/-- Derived `Ord` compares constructor indices — access.rs:15-17. -/
instance : LE Access := ⟨fun a b => a.idx ≤ b.idx⟩
instance : LT Access := ⟨fun a b => a.idx < b.idx⟩
instance (a b : Access) : Decidable (a ≤ b) := inferInstanceAs (Decidable (a.idx ≤ b.idx))
instance (a b : Access) : Decidable (a < b) := inferInstanceAs (Decidable (a.idx < b.idx))

/-- `Ord::max` / `std::cmp::max`: the second argument when equal (indistinguishable here). -/
def max (a b : Access) : Access := if b < a then a else b

/-- `Ord::min` / `std::cmp::min`. -/
def min (a b : Access) : Access := if b < a then b else a

/-- `Access::is_reader` — access.rs:43-45. -/
def isReader (a : Access) : Bool := decide (read ≤ a)

/-- `Access::is_editor` — access.rs:47-49. -/
def isEditor (a : Access) : Bool := decide (edit ≤ a)

/-- `Display for Access` — access.rs:52-61. -/
def display : Access → String
  | relay => "Relay"
  | read => "Read"
  | edit => "Edit"
  | admin => "Admin"

/-- The `match` of `JsAccess::try_from_string` — keyhive_wasm/src/js/access.rs:48-54. -/
def ofLower (s : String) : Option Access :=
  if s = "relay" then some relay
  else if s = "read" then some read
  else if s = "edit" then some edit
  else if s = "admin" then some admin
  else none

/-- `JsAccess::try_from_string` — keyhive_wasm/src/js/access.rs:47-55. Rust's Unicode
`to_lowercase` is a parameter. -/
def tryFromString (lower : String → String) (s : String) : Option Access := ofLower (lower s)

/-- `JsAccess::level` — keyhive_wasm/src/js/access.rs:60-67. -/
def level : Access → Nat
  | relay => 0
  | read => 1
  | edit => 2
  | admin => 3

/-- `JsAccess::compare_to` — keyhive_wasm/src/js/access.rs:72-78. -/
def compareTo (a b : Access) : Int :=
  match compare a.idx b.idx with
  | .lt => -1
  | .eq => 0
  | .gt => 1

/-- `JsAccess::at_least` — keyhive_wasm/src/js/access.rs:82-84. -/
def atLeast (a b : Access) : Bool := decide (b ≤ a)

end Access
end Verif
