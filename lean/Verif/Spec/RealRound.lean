import Verif.Spec.RealText
import Mathlib.Algebra.Order.Field.Basic
import Mathlib.Algebra.Order.Group.Abs
import Mathlib.Algebra.Order.Round
import Mathlib.Data.Int.Log
import Mathlib.Data.Rat.Floor

/-!
Roundings of floating point arithmetic, and what it means that a number is known up to some roundings.
-/

namespace Actl.IntText

open Actl.Text

/-- A rounding of numbers that are not negative, with a relative error of at most `u`.  (IEEE 754 arithmetic without
overflow and underflow: `u = 2 ^ -24` for `float`, `2 ^ -53` for `double`.) -/
structure Rounding {F : Type*} [Field F] [LinearOrder F] (fl : F → F) (u : F) : Prop where
  nonneg : 0 ≤ u
  small : u < 1
  near : ∀ y : F, 0 ≤ y → |fl y - y| ≤ u * y

/-- `y` is `v` up to the error of `k` roundings: the quotient is between `(1 - u) ^ k` and its inverse. -/
def UpTo {F : Type*} [Field F] [LinearOrder F] (u : F) (k : Nat) (v y : F) : Prop :=
  ∃ q : F, y = v * q ∧ (1 - u) ^ k ≤ q ∧ q ≤ ((1 - u) ^ k)⁻¹

/-- Rounding to the nearest number with `prec` binary digits (halves away from zero), exponents unbounded. -/
def roundBinary (prec : Nat) (x : ℚ) : ℚ :=
  let unit : ℚ := 2 ^ (Int.log 2 x + 1 - (prec : Int))
  round (x / unit) * unit

/-- The value of `ds.fs`, in base `B`, in floating point arithmetic: the digits before and after the point are each
converted at once, and those after the point are multiplied with the inverse of a power of the base. -/
def shortValue {F : Type*} [Field F] (fl : F → F) (B : Nat) (ds : List Byte) : Option (List Byte) → F
  | none => fl (numeral B ds)
  | some [] => fl (numeral B ds)
  | some fs => fl (fl (numeral B ds) + fl (fl (numeral B fs) * fl (1 / fl (B ^ fs.length : Nat))))

end Actl.IntText
