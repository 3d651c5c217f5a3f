/-!
Model of the quotient ring arithmetic in
/repo/include/actl/numeric/modular/ring.hpp.

Values are natural numbers that stand for `w`-bit unsigned words; every operation
that could wrap is reduced modulo `2 ^ w` explicitly.  `m` is the modulus *as stored*
(`ring.mod()`), i.e. the mathematical modulus reduced modulo `2 ^ w`: for
`static_quotient_ring<2^32>` the stored modulus is `0` (ring.hpp:37-40).
-/

namespace Actl.Modular

/-- Unsigned `w`-bit addition. -/
def wadd (w x y : Nat) : Nat := (x + y) % 2 ^ w

/-- Unsigned `w`-bit subtraction (operands are `w`-bit words). -/
def wsub (w x y : Nat) : Nat := (x + (2 ^ w - y)) % 2 ^ w

/-- Unsigned `w`-bit multiplication. -/
def wmul (w x y : Nat) : Nat := (x * y) % 2 ^ w

/-- A quotient ring: word width, stored modulus, `is_static` (ring.hpp:14-51). -/
structure Ring where
  w : Nat
  mod : Nat
  isStatic : Bool

/-- `mod_add`, integral branch, ring.hpp:54-58. -/
def modAdd (R : Ring) (x y : Nat) : Nat :=
  let z := wsub R.w R.mod y
  if x < z then wadd R.w x y else wsub R.w x z

/-- `mod_sub`, integral branch, ring.hpp:64-66. -/
def modSub (R : Ring) (x y : Nat) : Nat :=
  if x < y then wadd R.w x (wsub R.w R.mod y) else wsub R.w x y

/-- The loop of `mod_mul_binary`, ring.hpp:74-81, with accumulator `r`. -/
def modMulBinaryLoop (R : Ring) (r x y : Nat) : Nat :=
  let r' := if y % 2 = 1 then modAdd R r x else r
  if y / 2 ≠ 0 then modMulBinaryLoop R r' (modAdd R x x) (y / 2) else r'
termination_by y

/-- `mod_mul_binary`, ring.hpp:73-82. -/
def modMulBinary (R : Ring) (x y : Nat) : Nat := modMulBinaryLoop R 0 x y

/-- `mod_mul`, integral branches, ring.hpp:88-94.  `sizeof(Z) < sizeof(uint64_t)` is
`w < 64`.  `none` is the undefined behaviour of `% 0`. -/
def modMul (R : Ring) (x y : Nat) : Option Nat :=
  if R.isStatic && R.mod == 0 then some (wmul R.w x y)
  else if R.w < 64 then
    if R.mod = 0 then none else some ((wmul 64 x y % R.mod) % 2 ^ R.w)
  else some (modMulBinary R x y)

/-- What a division does: returns, throws `std::exception`, or runs into undefined
behaviour (`% 0`). -/
inductive DivResult where
  | ok (r : Nat)
  | throws
  | ub
deriving DecidableEq, Repr

/-- The loop of `mod_div`, ring.hpp:100-104: state `(p, q, a, b)`, result `(p, a)`.
`std::swap(p %= q, q)` sets `(p, q) := (q, p % q)`. -/
def modDivLoop (R : Ring) (p q a b : Nat) : Option (Nat × Nat) :=
  if _h : q = 0 then some (p, a)
  else
    match modMul R (p / q) b with
    | none => none
    | some t => modDivLoop R q (p % q) b (modSub R a t)
termination_by q
decreasing_by exact Nat.mod_lt _ (Nat.pos_of_ne_zero _h)

/-- `mod_div`, ring.hpp:98-108 (`ring.one()` is `Z(1)`, ring.hpp:18-20). -/
def modDiv (R : Ring) (x y : Nat) : DivResult :=
  let p := wsub R.w R.mod y
  let a := wsub R.w R.mod 1
  match modDivLoop R p y a (1 % 2 ^ R.w) with
  | none => .ub
  | some (p, a) =>
    if p = 0 then .ub
    else if x % p ≠ 0 then .throws
    else
      match modMul R a (x / p) with
      | none => .ub
      | some r => .ok r

/-- `ring_element::operator-()`, ring.hpp:160-164. -/
def modNeg (R : Ring) (x : Nat) : Nat := modSub R 0 x

end Actl.Modular
