import Mathlib.Data.Int.Notation

/-!
Arithmetic progressions, lexicographical order.
-/

namespace Actl.Ranges

/-- Whether a number is before the end of a range: excluding `last` upwards, including it
downwards. -/
def Before (step last x : Int) : Prop := if 0 < step then x < last else last ≤ x

/-- Number of terms of the progression from `first` with step `step` before the end `last`. -/
def IsCount (first last step : Int) (n : Nat) : Prop :=
  ∀ k : Nat, k < n ↔ Before step last (first + step * k)

/-- `first, first + step, ...`, `n` terms. -/
def progression (first step : Int) (n : Nat) : List Int :=
  (List.range n).map (fun k : Nat => first + step * k)

/-- The first list is a proper prefix of the second or has the smaller element at the first
difference. -/
def LexLt {α : Type} (lt : α → α → Prop) (xs ys : List α) : Prop :=
  (∃ y t, ys = xs ++ y :: t) ∨ ∃ p x y s t, xs = p ++ x :: s ∧ ys = p ++ y :: t ∧ lt x y

/-- Three-way comparison of a totally ordered set. -/
structure IsOrder {α : Type} (cmp : α → α → Int) : Prop where
  eq : ∀ x y, cmp x y = 0 ↔ x = y
  swap : ∀ x y, cmp x y < 0 ↔ 0 < cmp y x
  trans : ∀ x y z, cmp x y < 0 → cmp y z < 0 → cmp x z < 0

end Actl.Ranges
