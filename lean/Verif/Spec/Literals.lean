import Mathlib.Data.Nat.Digits.Defs

/-!
What an integer literal means in C++, independent of the model.
-/

namespace Actl.Literals

/-- Digit characters in the order of their values. -/
def lower : List Char := "0123456789abcdef".toList
def upper : List Char := "0123456789ABCDEF".toList

/-- `c` is a digit of value `d`. -/
def IsDigit (c : Char) (d : Nat) : Prop := lower[d]? = some c ∨ upper[d]? = some c

/-- `cs` spells the digit list `ds` (most significant first), separators interspersed. -/
inductive Spells : List Char → List Nat → Prop
  | nil : Spells [] []
  | sep {cs ds} : Spells cs ds → Spells ('\'' :: cs) ds
  | digit {c d cs ds} : IsDigit c d → Spells cs ds → Spells (c :: cs) (d :: ds)

/-- The prefix of a literal selects its base. -/
inductive HasBase : List Char → Nat → List Char → Prop
  | hex {x cs} : x = 'x' ∨ x = 'X' → HasBase ('0' :: x :: cs) 16 cs
  | bin {b cs} : b = 'b' ∨ b = 'B' → HasBase ('0' :: b :: cs) 2 cs
  | oct {cs} : (∀ c ∈ cs.head?, c ∉ ['x', 'X', 'b', 'B']) → HasBase ('0' :: cs) 8 cs
  | dec {cs} : (∀ c ∈ cs.head?, c ≠ '0') → HasBase cs 10 cs

/-- The literal `cs` is a well-formed numeral of value `v`. -/
def Denotes (cs : List Char) (v : Nat) : Prop :=
  ∃ base rest ds, HasBase cs base rest ∧ Spells rest ds ∧ (∀ d ∈ ds, d < base) ∧
    v = Nat.ofDigits base ds.reverse

end Actl.Literals
