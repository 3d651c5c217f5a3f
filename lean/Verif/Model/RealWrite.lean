import Verif.Model.IntWrite
import Verif.Model.BinaryPow
import Mathlib.Algebra.Order.Floor.Semiring
import Mathlib.Algebra.Order.Field.Basic

/-!
Model of the output of real numbers, `io/format/text/arithmetic/real_write.hpp`.

The values of the floating point type are elements of an ordered field `F`, or infinite, or NaN; the
sign bit is separate.  Every arithmetic operation is followed by a rounding `fl : F → F`, of which
the model assumes nothing.
-/

namespace Actl.IntText

open Actl.Text

variable {F : Type*} [Field F] [LinearOrder F] [FloorSemiring F]

/-- A value of a floating point type without its sign bit. -/
inductive Magnitude (F : Type*)
  | nan
  | inf
  | finite (x : F)
deriving DecidableEq

/-- `static_cast<unsigned long long>` of a floating point value: truncation, undefined behaviour
(`none`) if the result does not fit. -/
def truncate (y : F) : Option Nat := if -1 < y ∧ y < 2 ^ 64 then some ⌊y⌋₊ else none

/-- `base_power`, `real_write.hpp:73`: `binary_pow` in 64 bit arithmetic. -/
def basePower (base precision : Nat) : Nat :=
  (BinaryPow.binaryPow (· * ·) 1#64 (BitVec.ofNat 64 base) precision).toNat

/-- The integer part and the rounded fractional part, `real_write.hpp:74-80`. -/
def realParts (fl : F → F) (power : Nat) (x : F) : Option (Nat × Nat) := do
  let integerPart ← truncate x
  let fractionalPart ← truncate (fl (fl (fl (x - fl integerPart) * fl power) + 2⁻¹))
  return if power ≤ fractionalPart then ((integerPart + 1) % 2 ^ 64, 0)
    else (integerPart, fractionalPart)

/-- The size of the buffer, `real_write.hpp:81-86`. -/
def realCapacity (base precision : Nat) : Nat :=
  digitCount (2 ^ 64 - 1) (if base < 10 then 2 else 10) + 1 + precision

/-- The digits of the fraction, `real_write.hpp:87-92`.  `none`: a write before the start of the
buffer, a division by zero, or `std::fill` on a range whose end is before its start. -/
def realFraction (f : Fmt) (precision x : Nat) : Option (List Byte) :=
  if 0 < precision then do
    let t ← uitoa (realCapacity f.base precision) f x f.base []
    if t.length ≤ precision then some (List.replicate (precision - t.length) (lit '0') ++ t)
    else none
  else some []

/-- The point, `real_write.hpp:93-94`. -/
def realPoint (f : Fmt) (showpoint : Bool) (precision : Nat) (out : List Byte) :
    Option (List Byte) :=
  if decide (0 < precision) || showpoint then push (realCapacity f.base precision) (lit '.') out
  else some out

/-- The digits and the point, `real_write.hpp:87-95`. -/
def realText (f : Fmt) (showpoint : Bool) (precision : Nat) (parts : Nat × Nat) :
    Option (List Byte) := do
  let out ← realFraction f precision parts.2
  let out ← realPoint f showpoint precision out
  uitoa (realCapacity f.base precision) f parts.1 f.base out

/-- `sign`, `real_write.hpp:53-60`. -/
def realSign (f : Fmt) (negative : Bool) : Option Byte :=
  if negative then some (lit '-') else if f.showpos then some (lit '+') else none

/-- The sign is written, `real_write.hpp:97-98`. -/
def realPut (f : Fmt) (negative : Bool) (cap : Nat) (out : List Byte) : Option (List Byte) :=
  match realSign f negative with
  | none => some out
  | some c => push cap c out

/-- `encode(fmt, x)`, `real_write.hpp:48-101`: the text written for the value with the given sign bit
and magnitude. -/
def encodeReal (fl : F → F) (f : Fmt) (showpoint : Bool) (precision : Nat) (negative : Bool) :
    Magnitude F → Option (List Byte)
  | .nan => realPut f negative 4 (bytes (if f.uppercase then "NAN" else "nan"))
  | .inf => realPut f negative 4 (bytes (if f.uppercase then "INF" else "inf"))
  | .finite x => do
    let parts ← realParts fl (basePower f.base precision) x
    let out ← realText f showpoint precision parts
    realPut f negative (realCapacity f.base precision) out

end Actl.IntText
