import Verif.Model.Algebra

/-! # Common types, the policy of promotion, and the common value

Models `meta/strict_common_type.hpp`, `core/common.hpp`, `numeric/conversion/allow_promotion.hpp` with the
conversion of `lifetime/conversion/as.hpp`.

Simplifications:
* numbers are those of `Algebra`: a built-in integer type with a value, types of the same width and signedness
  being one type;
* resolving `op | policy` to the overload for integers and applying the policy to it are not modelled, apart from
  which operations the policy applies to;
* `none` stands for a program that does not compile, for a failed assertion and for undefined behaviour.
-/

namespace Actl.CommonType

open Equality (IntTy Elem promote common convert)
open Algebra (castTo)

/-! ### `strict_common_type` -/

/-- A type by what `strict_common_type` asks about it: a specialization of `ac::constant`
(`numeric/constant.hpp:50-57`), or another one, which has a default constructor or not. -/
inductive Ty
  | constant (value : Int)
  | other (name : Nat) (defaultConstructible : Bool)
deriving DecidableEq, Repr

/-- `is_constant_v` (`numeric/constant.hpp:50-57`). -/
def Ty.isConstant : Ty → Bool
  | .constant _ => true
  | .other _ _ => false

/-- The type of `T{}`: does not compile without a default constructor. -/
def Ty.make : Ty → Option Ty
  | .constant v => some (.constant v)
  | .other n true => some (.other n true)
  | .other _ false => none

/-- `decltype(strict_common_type<T, U>::f())` (`meta/strict_common_type.hpp:28-42`). -/
def strict2 (t u : Ty) : Option Ty :=
  if u.isConstant then t.make
  else if t.isConstant then u.make
  else if t = u then t.make
  else none

/-- `strict_common_type_t<T, Ts...>` (`meta/strict_common_type.hpp:23-26`, `:44-46`). -/
def strictFrom : Ty → List Ty → Option Ty
  | t, [] => some t
  | t, u :: us => (strict2 t u).bind fun v => strictFrom v us

/-- `strict_common_type_t<Ts...>` (`meta/strict_common_type.hpp:16-21`): not defined for no types. -/
def strictCommon : List Ty → Option Ty
  | [] => none
  | t :: ts => strictFrom t ts

/-! ### `common` -/

/-- An argument of `common`: a number, or `ac::none` (`core/none.hpp`). -/
inductive Arg
  | num (x : Elem)
  | nothing
deriving DecidableEq, Repr

/-- `Common::evaluate` of two arguments (`core/common.hpp:26-30`): both have to have the same type; asserts that
they are equal. -/
def common2 : Arg → Arg → Option Arg
  | .num x, .num y => if x.ty = y.ty then (if x.val = y.val then some (.num x) else none) else none
  | .nothing, .nothing => some .nothing
  | _, _ => none

/-- `Common::evaluate` of one argument and of several (`core/common.hpp:21-24`, `:32-35`). -/
def commonFrom : Arg → List Arg → Option Arg
  | x, [] => some x
  | x, y :: ys => (common2 x y).bind fun z => commonFrom z ys

/-- `eval(common(xs...))`. -/
def commonValue : List Arg → Option Arg
  | [] => none
  | x :: xs => commonFrom x xs

/-- `identity_element<Common, T>::value()` (`core/common.hpp:39-44`). -/
def commonIdentity : Arg := .nothing

/-! ### `allow_promotion` -/

/-- `std::common_type_t` of two integer types, [meta.trans.other]: the type of the conditional operator. -/
def commonType2 (s t : IntTy) : IntTy := if s = t then s else common (promote s) (promote t)

/-- `std::common_type_t` of several integer types. -/
def commonType : List IntTy → Option IntTy
  | [] => none
  | t :: ts => some (ts.foldl commonType2 t)

/-- `eval(as<T>(x))` (`lifetime/conversion/as.hpp:17-20`). -/
def as (t : IntTy) (x : Elem) : Elem := ⟨t, castTo t x.val⟩

/-- `Promotion::evaluate` (`numeric/conversion/allow_promotion.hpp:31-35`): the arguments of `op` after they are
converted to their common type. -/
def promoteArgs (xs : List Elem) : Option (List Elem) :=
  (commonType (xs.map Elem.ty)).map fun t => xs.map (as t)

/-- `eval((op | allow_promotion{})(l, r))` for an operation of `Algebra`.  The policy applies to operations with
an `operation_category` (`numeric/conversion/allow_promotion.hpp:38-40`, `core/scalar_operation.hpp:15-18`): the
overload for integers of `add`, and `min`, `max`; `MultiplyInteger`, `BitAndScalar`, `BitOrScalar` and
`BitXorScalar` have none, and are evaluated as without the policy. -/
def runPromoted (op : Algebra.Op) (l r : Elem) : Option Elem :=
  match op with
  | .add | .lmin | .lmax =>
    match promoteArgs [l, r] with
    | some [l', r'] => Algebra.run op l' r'
    | _ => none
  | _ => Algebra.run op l r

/-- `eval((is_less | allow_promotion{})(l, r))`: `IsLessScalar` has a category
(`numeric/comparison/ordering.hpp:15-28`). -/
def isLessPromoted (l r : Elem) : Option Bool :=
  match promoteArgs [l, r] with
  | some [l', r'] => some (Algebra.isLess l' r')
  | _ => none

/-- `eval((if_else | allow_promotion{})(c, l, r))` (`numeric/conversion/allow_promotion.hpp:23-29`). -/
def ifElsePromoted (c : Bool) (l r : Elem) : Elem :=
  Algebra.ifElse c (as (commonType2 l.ty r.ty) l) (as (commonType2 l.ty r.ty) r)

/-- `eval((common | allow_promotion{})(xs...))`. -/
def commonPromoted (xs : List Elem) : Option Arg :=
  (promoteArgs xs).bind fun ys => commonValue (ys.map .num)

end Actl.CommonType
