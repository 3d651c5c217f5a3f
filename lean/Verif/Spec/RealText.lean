import Verif.Spec.IntText
import Mathlib.Algebra.Order.Floor.Semiring
import Mathlib.Algebra.Order.Field.Basic
import Mathlib.Algebra.Order.Group.Abs

/-!
Independent meaning of texts of real numbers.
-/

namespace Actl.IntText

open Actl.Text

/-- `t` is the fixed point text of `n / B ^ p`: the canonical numeral of the integer part, the point
(left out only if there is no fraction and it is not asked for), and exactly `p` digits of the
fraction. -/
def FixedPoint (B : Nat) (upper showpoint : Bool) (p n : Nat) (t : List Byte) : Prop :=
  ∃ ip fp, t = ip ++ (if p = 0 ∧ showpoint = false then [] else [lit '.']) ++ fp ∧
    Canonical B upper (n / B ^ p) ip ∧ fp.length = p ∧
    (∀ c ∈ fp, isDig B c = true ∧ c ∈ (if upper then upperDigits else lowerDigits)) ∧
    numeral B fp = n % B ^ p

/-- The sign of a text. -/
def realSignText (showpos negative : Bool) : List Byte :=
  if negative then [lit '-'] else if showpos then [lit '+'] else []

/-- What is asked of the floating point arithmetic when `x` is written with the scale `P`: `P`, the
integer part and the fractional part of `x` are representable, and the error of an operation with a
result up to `P + 1` is at most `ε`.  (Exact arithmetic: `ε = 0`.) -/
structure Accurate {F : Type*} [Field F] [LinearOrder F] [FloorSemiring F] (fl : F → F) (ε : F)
    (P : Nat) (x : F) : Prop where
  nonneg : 0 ≤ ε
  small : 4 * ε ≤ 1
  scale : fl P = P
  integer : fl ⌊x⌋₊ = ⌊x⌋₊
  fraction : fl (x - ⌊x⌋₊) = x - ⌊x⌋₊
  near : ∀ y : F, 0 ≤ y → y ≤ P + 1 → |fl y - y| ≤ ε

/-! ### Reading -/

/-- The parts of the real number at the start of `s`, in base `B`: sign, digits before the point, and
the digits after the point if there is one (a point counts only after a digit). -/
def splitReal (B : Nat) (s : List Byte) : Bool × List Byte × Option (List Byte) :=
  let (neg, r) := splitSign true s
  let ds := r.takeWhile (isDig B)
  (neg, ds,
    if ds = [] then none
    else match r.dropWhile (isDig B) with
      | c :: t => if c = lit '.' then some (t.takeWhile (isDig B)) else none
      | [] => none)

/-- How many characters belong to the number. -/
def realConsumed (B : Nat) (s : List Byte) : Nat :=
  let (_, ds, fs) := splitReal B s
  (s.length - (splitSign true s).2.length) + ds.length +
    match fs with
    | none => 0
    | some fs => 1 + fs.length

/-- The number read: none if there is no digit before the point. -/
def realValue {F : Type*} [Field F] (B : Nat) (s : List Byte) : Option F :=
  let (neg, ds, fs) := splitReal B s
  let v : F := numeral B ds +
    match fs with
    | none => 0
    | some fs => numeral B fs / (B : F) ^ fs.length
  if ds = [] then none else some (if neg then -v else v)

end Actl.IntText
