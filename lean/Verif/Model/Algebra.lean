import Verif.Model.Equality

/-! # Operations on numbers of the built-in integer types

Models `numeric/arithmetic/additive/add.hpp`, `numeric/arithmetic/multiplicative/multiply.hpp`,
`numeric/bit/bit_{and,or,xor,not}.hpp`, `numeric/comparison/min_max.hpp`, and the evaluation of an operation into
its `inout` argument (`operation/operation/operation_base.hpp`, `operation/operation/inout.hpp`).

Simplifications:
* a number is an `Equality.Elem`: a type (its width and signedness) with a value; `bool` is the unsigned type of
  one bit.  The language's conversions are those of `Equality`; types narrower than `int` promote to `int`, which
  has 32 bits;
* building the expression and finding the overload (`AddInteger`, `BitAndScalar`, …) are not modelled here: the
  overload for integers has been found;
* `none` stands for a program that does not compile and for overflow of a signed type, which is undefined.
-/

namespace Actl.Algebra

open Equality (IntTy Elem promote common convert)

/-- The operations with an `identity_element`; `lmin` and `lmax` are `min` and `max`. -/
inductive Op
  | add | mul | band | bor | bxor | lmin | lmax
deriving DecidableEq, Repr

/-- A value of type `t` from a value of any integer type, [conv.integral], [conv.bool]: for `bool` whether it is
not zero, otherwise the only value of the type that is congruent. -/
def castTo (t : IntTy) (x : Int) : Int :=
  if t.bits = 1 then (if x = 0 then 0 else 1)
  else if t.signed then (x + 2 ^ (t.bits - 1)) % 2 ^ t.bits - 2 ^ (t.bits - 1)
  else x % 2 ^ t.bits

/-- The built-in arithmetic operator that computes `f`: both sides are converted to the common type
([expr.arith.conv]); the result is taken modulo `2 ^ bits` if this is unsigned, and undefined if it does not fit
a signed one ([basic.fundamental], [expr.pre]). -/
def builtinArith (f : Int → Int → Int) (l r : Elem) : Option Elem :=
  let t := common (promote l.ty) (promote r.ty)
  let z := f (convert t l.val) (convert t r.val)
  if t.signed then
    if -(2 ^ (t.bits - 1)) ≤ z ∧ z < 2 ^ (t.bits - 1) then some ⟨t, z⟩ else none
  else some ⟨t, z % 2 ^ t.bits⟩

/-- The number of type `t` whose representation is the given one (two's complement, [basic.fundamental]). -/
def ofBits (t : IntTy) (z : BitVec t.bits) : Elem :=
  ⟨t, if t.signed then z.toInt else z.toNat⟩

/-- The built-in bitwise operator that computes `f` of the representations of both sides, converted to the common
type ([expr.bit.and], [expr.or], [expr.xor]). -/
def builtinBits (f : ∀ {n : Nat}, BitVec n → BitVec n → BitVec n) (l r : Elem) : Elem :=
  let t := common (promote l.ty) (promote r.ty)
  ofBits t (f (BitVec.ofInt t.bits (convert t l.val)) (BitVec.ofInt t.bits (convert t r.val)))

/-- `AddInteger::evaluate` (`numeric/arithmetic/additive/add.hpp:49-52`): `l + r`. -/
def addInteger (l r : Elem) : Option Elem := builtinArith (· + ·) l r

/-- `MultiplyInteger::evaluate` (`numeric/arithmetic/multiplicative/multiply.hpp:46-49`): `l * r`. -/
def multiplyInteger (l r : Elem) : Option Elem := builtinArith (· * ·) l r

/-- `BitAndScalar::evaluate` (`numeric/bit/bit_and.hpp:47-50`): `l & r`. -/
def bitAnd (l r : Elem) : Elem := builtinBits (· &&& ·) l r

/-- `BitOrScalar::evaluate` (`numeric/bit/bit_or.hpp:47-50`): `l | r`. -/
def bitOr (l r : Elem) : Elem := builtinBits (· ||| ·) l r

/-- `BitXorScalar::evaluate` (`numeric/bit/bit_xor.hpp:47-50`): `l ^ r`. -/
def bitXor (l r : Elem) : Elem := builtinBits (· ^^^ ·) l r

/-- `BitNotScalar::evaluate` (`numeric/bit/bit_not.hpp:30-32`): `~x`, on the promoted type. -/
def bitNot (x : Elem) : Elem :=
  let t := promote x.ty
  ofBits t (~~~ BitVec.ofInt t.bits (convert t x.val))

/-- `is_less(l, r)` (`numeric/comparison/ordering.hpp:23-37`): the built-in `<`. -/
def isLess (l r : Elem) : Bool :=
  let t := common (promote l.ty) (promote r.ty)
  decide (convert t l.val < convert t r.val)

/-- `if_else(c, x, y)` on numbers (`core/if_else.hpp:20-25`): the conditional operator, [expr.cond]: both are converted
to the common type, unless they have the same type. -/
def ifElse (c : Bool) (x y : Elem) : Elem :=
  if x.ty = y.ty then (if c then x else y)
  else
    let t := common (promote x.ty) (promote y.ty)
    ⟨t, convert t (if c then x.val else y.val)⟩

/-- `Min::evaluate` (`numeric/comparison/min_max.hpp:21-24`): names a function `less` that is not declared
anywhere, and no namespace is associated with a built-in type, so it does not compile. -/
def lmin (_ _ : Elem) : Option Elem := none

/-- `Max::evaluate` (`numeric/comparison/min_max.hpp:41-44`): `eval(if_else(is_less(l, r), r, l))`. -/
def lmax (l r : Elem) : Elem := ifElse (isLess l r) r l

/-- `eval(op(l, r))` for the operations above. -/
def run : Op → Elem → Elem → Option Elem
  | .add, l, r => addInteger l r
  | .mul, l, r => multiplyInteger l r
  | .band, l, r => some (bitAnd l r)
  | .bor, l, r => some (bitOr l r)
  | .bxor, l, r => some (bitXor l r)
  | .lmin, l, r => lmin l r
  | .lmax, l, r => some (lmax l r)

/-- `std::numeric_limits<T>::lowest()`. -/
def lowest (t : IntTy) : Int := if t.signed then -(2 ^ (t.bits - 1)) else 0

/-- `std::numeric_limits<T>::max()`. -/
def highest (t : IntTy) : Int := if t.signed then 2 ^ (t.bits - 1) - 1 else 2 ^ t.bits - 1

/-- `T{c}` of a constant: does not compile if `T` does not have the value, [dcl.init.list] (narrowing). -/
def braces (t : IntTy) (c : Int) : Option Elem :=
  if lowest t ≤ c ∧ c ≤ highest t then some ⟨t, c⟩ else none

/-- `identity_element<Op, T>::value()`: `add.hpp:19-24`, `multiply.hpp:18-23`, `bit_and.hpp:18-23`,
`bit_or.hpp:18-23`, `bit_xor.hpp:18-23`, `min_max.hpp:28-33`, `min_max.hpp:48-53`. -/
def identity : Op → IntTy → Option Elem
  | .add, t => braces t 0
  | .mul, t => braces t 1
  | .band, t => braces t (-1)
  | .bor, t => braces t 0
  | .bxor, t => braces t 0
  | .lmin, t => some ⟨t, highest t⟩
  | .lmax, t => some ⟨t, lowest t⟩

/-- `op(inout{x}, y)`, and so the operators `x += y`, `x *= y`, `x &= y`, `x |= y`, `x ^= y` of the types that
enable them (`operation/operation/operation_base.hpp:68-78`, `:87-92`, `operation/operation/inout.hpp:17-35`):
evaluates on the value of the target and `y`, then assigns the result to the target, which converts it to the
target's type. -/
def runInto (op : Op) (x y : Elem) : Option Elem :=
  (run op x y).map fun z => ⟨x.ty, castTo x.ty z.val⟩

/-- `op(x, inout{y})`: the target may be at any position. -/
def runIntoRight (op : Op) (x y : Elem) : Option Elem :=
  (run op x y).map fun z => ⟨y.ty, castTo y.ty z.val⟩

end Actl.Algebra
