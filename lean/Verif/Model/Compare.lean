import Mathlib.Algebra.Order.Group.Abs

/-!
Model of the scalar comparisons (`numeric/comparison`) and of the absolute error policy
(`numeric/comparison/absolute_error.hpp`).  The scalar type is any linearly ordered commutative
group (exact arithmetic; rounding of floating-point subtraction is not modelled), and, for the
unsigned case, `BitVec w`.
-/

namespace Actl.Compare

section exact
variable {α : Type} [AddCommGroup α] [LinearOrder α]

/-- `apply_policy(IsEqualScalar, …)`, `numeric/comparison/absolute_error.hpp:23-26`:
`abs(l - r) <= epsilon`. -/
def isEqual (eps l r : α) : Bool := decide (|l - r| ≤ eps)

/-- `apply_policy(IsLessScalar, …)`, `numeric/comparison/absolute_error.hpp:28-31`:
`epsilon < r - l`. -/
def isLess (eps l r : α) : Bool := decide (eps < r - l)

/-- `IsGreater::formula = r_ < l_`, `numeric/comparison/ordering.hpp:45-49`. -/
def isGreater (eps l r : α) : Bool := isLess eps r l

/-- `is_less_or_equal = !is_greater`, `numeric/comparison/ordering.hpp:59`. -/
def isLessOrEqual (eps l r : α) : Bool := !isGreater eps l r

/-- `is_greater_or_equal = !is_less`, `numeric/comparison/ordering.hpp:67`. -/
def isGreaterOrEqual (eps l r : α) : Bool := !isLess eps l r

/-- `is_not_equal = !is_equal`, `numeric/comparison/equality.hpp:25`. -/
def isNotEqual (eps l r : α) : Bool := !isEqual eps l r

/-- `Compare3WayScalar::formula = as<int>(is_greater) - as<int>(is_less)`,
`numeric/comparison/compare3way.hpp:22`. -/
def compare3way (eps l r : α) : Int :=
  (if isGreater eps l r then 1 else 0) - (if isLess eps l r then 1 else 0)

/-- `SgnScalar::formula = compare3way(x_, 0_c)`, `numeric/comparison/sgn.hpp:26`. -/
def sgn (eps x : α) : Int := compare3way eps x 0

/-- `Max::evaluate`, `numeric/comparison/min_max.hpp:41-44`: `is_less(l, r) ? r : l`. -/
def max' (eps l r : α) : α := if isLess eps l r then r else l

/-- `Min::evaluate`, `numeric/comparison/min_max.hpp:21-24`: `less(r, l) ? r : l`
(`less` read as `is_less`). -/
def min' (eps l r : α) : α := if isLess eps r l then r else l

end exact

/-- The same policy applied to an unsigned type: subtraction wraps, `abs` is the identity
(`numeric/comparison/abs.hpp:27-28`). -/
def isEqualU {w : Nat} (eps l r : BitVec w) : Bool := decide (l - r ≤ eps)

def isLessU {w : Nat} (eps l r : BitVec w) : Bool := decide (eps < r - l)

end Actl.Compare
