import Verif.Model.Algebra
import Mathlib.Data.Rat.Defs
import Mathlib.Algebra.Order.Ring.Abs
import Mathlib.Data.Rat.Cast.Order

/-! # Comparisons of numbers of the built-in types, integer and floating point

Models `numeric/comparison/{equality,ordering,compare3way,sgn,abs,min_max,absolute_error}.hpp` and
`numeric/arithmetic/additive/subtract.hpp` on numbers of any of the arithmetic types, the two sides of different types
included.

Simplifications:
* integers are those of `Model/Algebra.lean`;
* a floating point type is the number of its binary digits and its largest finite number.  A value is a rational number, an
  infinity or NaN: the two zeros are one value, which comparisons cannot tell apart.  There is no least positive number: a
  difference of numbers of the type that is less than its smallest normal number is a number of the type;
* `round p x` is the nearest number of `p` binary digits, a parameter, so that nothing depends on how ties are resolved;
* building the expressions and finding the overloads is in `Model/Expression.lean`; here they have been found.  `sgn` is called
  without a policy (with one it ignores it, see there);
* `none` stands for overflow of a signed integer type, which is undefined.
-/

namespace Actl.Numbers

open Equality (IntTy Elem promote common convert)
open Algebra (builtinArith castTo)

/-- A value of a floating point type. -/
inductive FVal
  | nan
  | inf (neg : Bool)
  | fin (x : ℚ)
deriving DecidableEq

/-- A floating point type: the number of binary digits, and its largest finite number. -/
structure FloatTy where
  prec : Nat
  limit : ℚ
deriving DecidableEq

/-- A number of an arithmetic type. -/
inductive Num
  | int (e : Elem)
  | float (t : FloatTy) (v : FVal)
deriving DecidableEq

variable (round : Nat → ℚ → ℚ)

/-- The number of a floating point type that a result is rounded to: an infinity if it is too large. -/
def fit (t : FloatTy) (z : ℚ) : FVal :=
  if t.limit < |round t.prec z| then .inf (decide (z < 0)) else .fin (round t.prec z)

/-- Conversion to a floating point type, [conv.fpint], [conv.double]; the latter is only used for types that have the value. -/
def toFloat (t : FloatTy) : Num → FVal
  | .int e => fit round t e.val
  | .float _ v => v

/-- The floating point type that both sides are converted to, [expr.arith.conv]; `none` if both have integer types. -/
def floatCommon : Num → Num → Option FloatTy
  | .int _, .int _ => none
  | .int _, .float t _ => some t
  | .float t _, .int _ => some t
  | .float s _, .float t _ => some (if s.prec < t.prec then t else s)

/-- The built-in `<` of floating point values. -/
def FVal.lt : FVal → FVal → Bool
  | .nan, _ => false
  | _, .nan => false
  | .inf true, .inf true => false
  | .inf true, _ => true
  | _, .inf true => false
  | .inf false, _ => false
  | _, .inf false => true
  | .fin x, .fin y => decide (x < y)

/-- The built-in `==` of floating point values. -/
def FVal.eq : FVal → FVal → Bool
  | .nan, _ => false
  | _, .nan => false
  | .inf a, .inf b => a == b
  | .fin x, .fin y => decide (x = y)
  | _, _ => false

/-- The built-in `-` of floating point values of type `t`. -/
def FVal.sub (t : FloatTy) : FVal → FVal → FVal
  | .nan, _ => .nan
  | _, .nan => .nan
  | .inf a, .inf b => if a = b then .nan else .inf a
  | .inf a, .fin _ => .inf a
  | .fin _, .inf b => .inf (!b)
  | .fin x, .fin y => fit round t (x - y)

/-- `IsLessScalar::evaluate`, `numeric/comparison/ordering.hpp:23-26`: the built-in `<`. -/
def isLess : Num → Num → Bool
  | .int a, .int b => Algebra.isLess a b
  | l, r =>
    match floatCommon l r with
    | some t => (toFloat round t l).lt (toFloat round t r)
    | none => false

/-- `IsEqualScalar::evaluate`, `numeric/comparison/equality.hpp:42-45`: the built-in `==`. -/
def isEqual : Num → Num → Bool
  | .int a, .int b => Equality.eqOp a b
  | l, r =>
    match floatCommon l r with
    | some t => (toFloat round t l).eq (toFloat round t r)
    | none => false

/-- `IsGreater::formula = r_ < l_`, `numeric/comparison/ordering.hpp:45-49`. -/
def isGreater (l r : Num) : Bool := isLess round r l

/-- `is_less_or_equal = !is_greater`, `numeric/comparison/ordering.hpp:59`. -/
def isLessOrEqual (l r : Num) : Bool := !isGreater round l r

/-- `is_greater_or_equal = !is_less`, `numeric/comparison/ordering.hpp:67`. -/
def isGreaterOrEqual (l r : Num) : Bool := !isLess round l r

/-- `is_not_equal = !is_equal`, `numeric/comparison/equality.hpp:25`. -/
def isNotEqual (l r : Num) : Bool := !isEqual round l r

/-- `Compare3WayScalar::formula = as<int>(is_greater) - as<int>(is_less)`, `numeric/comparison/compare3way.hpp:22`. -/
def compare3way (l r : Num) : Int :=
  (if isGreater round l r then 1 else 0) - (if isLess round l r then 1 else 0)

/-- `SgnScalar::formula = compare3way(x_, 0_c)`, `numeric/comparison/sgn.hpp:26`; the constant is an `int`. -/
def sgn (x : Num) : Int := compare3way round x (.int ⟨⟨32, true⟩, 0⟩)

/-- `AbsScalar::evaluate`, `numeric/comparison/abs.hpp:25-33`.  The function `abs` of the standard library works on the promoted
type, without a result for its lowest number; the result is converted to the type of the argument. -/
def absN : Num → Option Num
  | .int e =>
    if e.ty.signed = false then some (.int e)
    else if e.val = -(2 ^ ((promote e.ty).bits - 1)) then none
    else some (.int ⟨e.ty, castTo e.ty |e.val|⟩)
  | .float t v =>
    some (.float t (match v with
      | .nan => .nan
      | .inf _ => .inf false
      | .fin x => .fin |x|))

/-- `SubtractScalars::evaluate`, `numeric/arithmetic/additive/subtract.hpp:37-40`: the built-in `-`. -/
def subtract : Num → Num → Option Num
  | .int a, .int b => (builtinArith (· - ·) a b).map .int
  | l, r => (floatCommon l r).map fun t => .float t (FVal.sub round t (toFloat round t l) (toFloat round t r))

/-- `Max::evaluate`, `numeric/comparison/min_max.hpp:41-44`: `if_else(is_less(l, r), r, l)`, the conditional operator converts
both to the common type. -/
def maxN : Num → Num → Option Num
  | .int a, .int b => some (.int (Algebra.lmax a b))
  | l, r => (floatCommon l r).map fun t => .float t (toFloat round t (if isLess round l r then r else l))

/-! ## With the policy `absolute_error` -/

/-- `apply_policy(IsLessScalar, …)`, `numeric/comparison/absolute_error.hpp:28-31`: `epsilon < r - l`. -/
def isLessTol (eps l r : Num) : Option Bool := (subtract round r l).map fun d => isLess round eps d

/-- `apply_policy(IsEqualScalar, …)`, `numeric/comparison/absolute_error.hpp:23-26`: `abs(l - r) <= epsilon`, where `<=` is
`is_less_or_equal`. -/
def isEqualTol (eps l r : Num) : Option Bool :=
  ((subtract round l r).bind absN).map fun d => isLessOrEqual round d eps

/-- `is_greater` with the policy: `r_ < l_`, `numeric/comparison/ordering.hpp:48`. -/
def isGreaterTol (eps l r : Num) : Option Bool := isLessTol round eps r l

/-- `is_less_or_equal` with the policy, `numeric/comparison/ordering.hpp:59`. -/
def isLessOrEqualTol (eps l r : Num) : Option Bool := (isGreaterTol round eps l r).map (!·)

/-- `is_greater_or_equal` with the policy, `numeric/comparison/ordering.hpp:67`. -/
def isGreaterOrEqualTol (eps l r : Num) : Option Bool := (isLessTol round eps l r).map (!·)

/-- `compare3way` with the policy, `numeric/comparison/compare3way.hpp:22`. -/
def compare3wayTol (eps l r : Num) : Option Int :=
  (isGreaterTol round eps l r).bind fun g => (isLessTol round eps l r).map fun s =>
    (if g then 1 else 0) - (if s then 1 else 0)

end Actl.Numbers
