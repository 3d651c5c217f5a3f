/-!
Model of `ac::binary_pow`, /repo/include/actl/numeric/algorithm/binary_pow.hpp:13-25.

The element type is abstract: `mul` stands for `operator*` (and `operator*=`),
`one` for `T{1}`.
-/

namespace Actl.BinaryPow

/-- The `for` loop of binary_pow.hpp:19-23 followed by `return res * value`
(line 24).  `power >>= 1` is `power / 2`, `power & 1` is `power % 2 = 1`
(the exponent is non-negative, asserted in line 15). -/
def loop {α : Type _} (mul : α → α → α) (res value : α) (power : Nat) : α :=
  if power > 1 then
    loop mul (if power % 2 = 1 then mul res value else res) (mul value value) (power / 2)
  else
    mul res value
termination_by power

/-- `binary_pow(value, power)`, binary_pow.hpp:14-25. -/
def binaryPow {α : Type _} (mul : α → α → α) (one value : α) (power : Nat) : α :=
  if power = 0 then one else loop mul one value power

end Actl.BinaryPow
