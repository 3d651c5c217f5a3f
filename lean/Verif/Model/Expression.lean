import Mathlib.Data.Rat.Defs
import Mathlib.Algebra.Order.Field.Rat

/-!
# Expressions of operations and their evaluation

Model of `operation/arg.hpp`, `operation/expression/{expression,expression_data,evaluate}.hpp`,
`operation/operation/operation_base.hpp`, `operation/overload/{overload,resolve_overload,
resolve_expression}.hpp`, `operation/policy/{policy,policy_stack,resolve_overload,
tuned_operation}.hpp` with the scalar operations of `numeric/arithmetic`, `numeric/comparison`,
`numeric/logic`, `lifetime/conversion/as.hpp` and `core/if_else.hpp`, and the policy of
`numeric/comparison/absolute_error.hpp`.

Simplifications.
* Integers are mathematical and floating point numbers are rational: there is no overflow or rounding.
  All integer types but `bool` are one type.
* `none` stands for a program that does not compile, division by zero, and not enough fuel.
* The two values of `if_else` are not converted to their common type.
* References, moves and `constexpr` are not modelled.
-/

namespace Actl.Expr

/-- Types of arguments as `overload` sees them.  `op` is the type of any operation or expression. -/
inductive Ty
  | bool | int | real | const | op
  deriving DecidableEq, Repr

/-- Scalars; `const c` is `constant<c>`. -/
inductive Val
  | bool (b : Bool)
  | int (n : Int)
  | real (q : Rat)
  | const (c : Int)
  deriving DecidableEq

/-- The type of a value. -/
def Val.ty : Val → Ty
  | .bool _ => .bool
  | .int _ => .int
  | .real _ => .real
  | .const _ => .const

/-- `std::integral`. -/
def Ty.integral : Ty → Bool
  | .bool | .int => true
  | _ => false

/-- `std::is_arithmetic_v`. -/
def Ty.arithmetic : Ty → Bool
  | .bool | .int | .real => true
  | _ => false

/-- The operations: those named by users and their overloads for scalars (`…S`, `…Int`, `…Float`). -/
inductive Op
  | add | addInt | addFloat | sub | subS | mul | mulInt | mulFloat | div | divS | neg | negS
  | lnot | lnotS | land | landS | lor | lorS
  | isEqual | isEqualS | isLess | isLessS | isGreater | cmp3 | cmp3S | sgn | sgnS | abs | absS
  | squared | asInt | ifElse
  deriving DecidableEq, Repr

/-- Values, operations, expressions and operations with a policy (`absolute_error` with the given
tolerance).  `expr h args` is `expression<H, Args...>`, `expression.hpp` 21-39 and 79-99. -/
inductive Term
  | val (v : Val)
  | arg (i n : Nat)
  | op (o : Op)
  | expr (h : Term) (args : List Term)
  | tuned (t : Term) (eps : Rat)

/-- `x_`, `l_`, `r_`: `arg.hpp` 31-33. -/
def x_ : Term := .arg 0 1
@[inherit_doc x_] def l_ : Term := .arg 0 2
@[inherit_doc x_] def r_ : Term := .arg 1 2

mutual

/-- `Operation`, `Operation.hpp` 16-20, `arg.hpp` 35-36, `expression.hpp` 79-83. -/
def isOperation : Term → Bool
  | .val _ => false
  | .arg _ _ | .op _ | .tuned _ _ => true
  | .expr _ args => anyOperation args

/-- One of them is an operation. -/
def anyOperation : List Term → Bool
  | [] => false
  | t :: ts => isOperation t || anyOperation ts

end

/-- `raw_t` of an argument. -/
def rawTy : Term → Ty
  | .val v => v.ty
  | _ => .op

/-- `is_not_equal`, `equality.hpp` 25. -/
def isNotEqual : Term := .expr (.op .lnot) [.op .isEqual]

/-- `is_less_or_equal`, `ordering.hpp` 59. -/
def isLessOrEqual : Term := .expr (.op .lnot) [.op .isGreater]

/-- `is_greater_or_equal`, `ordering.hpp` 67. -/
def isGreaterOrEqual : Term := .expr (.op .lnot) [.op .isLess]

/-- `logical_implies`, `logical_implies.hpp` 15. -/
def implies : Term := .expr (.op .lor) [.expr (.op .lnot) [l_], r_]

/-- `overload<Op, Args...>::formula`: the registered overloads and the default formulas. -/
def formula : Op → List Ty → Option Term
  -- `add.hpp` 38-74
  | .add, [a, b] =>
    if a.integral && b.integral then some (.op .addInt)
    else if a = .real ∧ b = .real then some (.op .addFloat) else none
  -- `subtract.hpp` 30-42
  | .sub, [a, b] => if a.arithmetic && b.arithmetic then some (.op .subS) else none
  -- `multiply.hpp` 37-68
  | .mul, [a, b] =>
    if a.integral && b.integral then some (.op .mulInt)
    else if a = .real ∧ b = .real then some (.op .mulFloat) else none
  -- `divide.hpp` 30-42
  | .div, [a, b] => if a.arithmetic && b.arithmetic then some (.op .divS) else none
  -- `negate.hpp` 25-36
  | .neg, [a] => if a.arithmetic then some (.op .negS) else none
  -- `logical_not.hpp` 24-34, `logical_and.hpp` 31-46, `logical_or.hpp` 31-46
  | .lnot, [a] => if a.arithmetic then some (.op .lnotS) else none
  | .land, [a, b] => if a.arithmetic && b.arithmetic then some (.op .landS) else none
  | .lor, [a, b] => if a.arithmetic && b.arithmetic then some (.op .lorS) else none
  -- `equality.hpp` 33-47
  | .isEqual, [a, b] => if a.arithmetic && b.arithmetic then some (.op .isEqualS) else none
  -- `ordering.hpp` 31-36 and 45-49
  | .isLess, _ => some (.op .isLessS)
  | .isGreater, _ => some (.expr (.op .isLess) [r_, l_])
  -- `compare3way.hpp` 22 and 30
  | .cmp3, _ => some (.op .cmp3S)
  | .cmp3S, _ => some (.expr (.op .sub)
      [.expr (.op .asInt) [.op .isGreater], .expr (.op .asInt) [.op .isLess]])
  -- `sgn.hpp` 20-28
  | .sgn, [a] => if a.arithmetic then some (.op .sgnS) else none
  | .sgnS, _ => some (.expr (.op .cmp3) [x_, .val (.const 0)])
  -- `abs.hpp` 19-35
  | .abs, [a] => if a.arithmetic then some (.op .absS) else none
  -- `squared.hpp` 17
  | .squared, _ => some (.expr (.op .mul) [x_, x_])
  | _, _ => none

/-- The value as an integer, for `bool` and integers. -/
def Val.toInt? : Val → Option Int
  | .bool b => some (if b then 1 else 0)
  | .int n => some n
  | _ => none

/-- The value as a floating point number, for arithmetic types. -/
def Val.toRat? : Val → Option Rat
  | .bool b => some (if b then 1 else 0)
  | .int n => some n
  | .real q => some q
  | .const _ => none

/-- The number a scalar stands for. -/
def Val.num : Val → Rat
  | .bool b => if b then 1 else 0
  | .int n => n
  | .real q => q
  | .const c => c

/-- Conversion to `bool`. -/
def Val.truth (v : Val) : Bool := v.num ≠ 0

/-- The usual arithmetic conversions: integers if both are, else floating point numbers. -/
def arith (f : Int → Int → Option Int) (g : Rat → Rat → Option Rat) (a b : Val) : Option Val :=
  match a.toInt?, b.toInt? with
  | some x, some y => (f x y).map .int
  | _, _ => match a.toRat?, b.toRat? with
    | some x, some y => (g x y).map .real
    | _, _ => none

/-- `evaluate` of the operations that have one. -/
def prim : Op → List Val → Option Val
  -- `add.hpp` 49-52 and 68-71
  | .addInt, [a, b] => arith (fun x y => some (x + y)) (fun x y => some (x + y)) a b
  | .addFloat, [a, b] => arith (fun x y => some (x + y)) (fun x y => some (x + y)) a b
  -- `subtract.hpp` 37-40
  | .subS, [a, b] => arith (fun x y => some (x - y)) (fun x y => some (x - y)) a b
  -- `multiply.hpp` 46-49 and 63-66
  | .mulInt, [a, b] => arith (fun x y => some (x * y)) (fun x y => some (x * y)) a b
  | .mulFloat, [a, b] => arith (fun x y => some (x * y)) (fun x y => some (x * y)) a b
  -- `divide.hpp` 37-40
  | .divS, [a, b] => arith (fun x y => if y = 0 then none else some (x.tdiv y))
      (fun x y => if y = 0 then none else some (x / y)) a b
  -- `negate.hpp` 31-34
  | .negS, [.bool b] => some (.int (if b then -1 else 0))
  | .negS, [.int n] => some (.int (-n))
  | .negS, [.real q] => some (.real (-q))
  -- `logical_not.hpp` 30-32, `logical_and.hpp` 41-44, `logical_or.hpp` 41-44
  | .lnotS, [.bool b] => some (.bool !b)
  | .landS, [.bool a, .bool b] => some (.bool (a && b))
  | .lorS, [.bool a, .bool b] => some (.bool (a || b))
  -- `equality.hpp` 42-45, `ordering.hpp` 23-26
  | .isEqualS, [a, b] => some (.bool (a.num = b.num))
  | .isLessS, [a, b] => some (.bool (a.num < b.num))
  -- `abs.hpp` 25-33
  | .absS, [.bool b] => some (.bool b)
  | .absS, [.int n] => some (.int |n|)
  | .absS, [.real q] => some (.real |q|)
  -- `as.hpp` 17-20
  | .asInt, [.bool b] => some (.int (if b then 1 else 0))
  | .asInt, [.int n] => some (.int n)
  | .asInt, [.real q] => some (.int (q.num.tdiv q.den))
  | .asInt, [.const c] => some (.int c)
  -- `if_else.hpp` 20-25
  | .ifElse, [c, a, b] => some (if c.truth then a else b)
  | _, _ => none

/-- `can_apply_policy_v` for `absolute_error`, `absolute_error.hpp` 23-31. -/
def canApply : Term → Bool
  | .op .isEqualS | .op .isLessS => true
  | _ => false

/-- `apply_policy_if_can`, `policy.hpp` 22-31, for `absolute_error`. -/
def applyIfCan (eps : Rat) : Term → Term
  -- `abs(subtract) <= policy.epsilon()`
  | .op .isEqualS => .expr isLessOrEqual [.expr (.op .abs) [.op .sub], .val (.real eps)]
  -- `policy.epsilon() < r_ - l_`
  | .op .isLessS => .expr (.op .isLess) [.val (.real eps), .expr (.op .sub) [r_, l_]]
  | t => t

mutual

/-- `is_overload_resolved_v`, `resolve_overload.hpp` 37-40. -/
def isResolved : Term → List Ty → List Rat → Bool
  | .val _, _, _ => false
  | .arg _ _, _, _ => true
  | .op o, tys, ps => (formula o tys).isNone && (ps.isEmpty || !canApply (.op o))
  | .tuned _ _, _, _ => false
  | .expr h args, tys, ps =>
    !(allOperations args && !(isResolved h (rawTys args) ps && allResolved args tys ps))

/-- All of them are resolved. -/
def allResolved : List Term → List Ty → List Rat → Bool
  | [], _, _ => true
  | t :: ts, tys, ps => isResolved t tys ps && allResolved ts tys ps

/-- The types of the arguments. -/
def rawTys : List Term → List Ty
  | [] => []
  | t :: ts => rawTy t :: rawTys ts

/-- All of them are operations. -/
def allOperations : List Term → Bool
  | [] => true
  | t :: ts => isOperation t && allOperations ts

end

/-- The values, if there are all of them. -/
def sequence {α : Type} : List (Option α) → Option (List α)
  | [] => some []
  | x :: xs => x.bind fun y => (sequence xs).map (y :: ·)

/-- `overload_resolver<Op, ArgsArray, Policy>::resolve`.
* An operation with a formula: `resolve_overload.hpp` 42-53.
* An expression: `resolve_expression.hpp` 51-59.  The condition refers to `is_overload_resolved_v` of
  all arguments, and is not satisfied if one of them is not an operation.  The types of the arguments
  are the types of the operations in the expression, 28-46.
* An operation with a policy: `policy/resolve_overload.hpp` 30-41.
* Otherwise the policies are applied one by one, `policy/resolve_overload.hpp` 15-28, or the operation
  stays, `overload/resolve_overload.hpp` 15-29. -/
def resolve : Nat → Term → List Ty → List Rat → Option Term
  | 0, _, _, _ => none
  | _ + 1, .val _, _, _ => none
  | n + 1, .tuned t eps, tys, ps => resolve n t tys (eps :: ps)
  | _ + 1, .arg i k, _, _ => some (.arg i k)
  | n + 1, .op o, tys, ps =>
    match formula o tys with
    | some f => resolve n f tys ps
    | none => match ps with
      | [] => some (.op o)
      | p :: ps => if canApply (.op o) then resolve n (applyIfCan p (.op o)) tys ps
        else some (.op o)
  | n + 1, .expr h args, tys, ps =>
    if isResolved (.expr h args) tys ps then some (.expr h args)
    else (sequence (args.map fun a => resolve n a tys ps)).bind fun args' =>
      (resolve n h (rawTys args') ps).map fun h' => .expr h' args'

mutual

/-- `pass_arguments`, `expression.hpp` 49-72. -/
def pass : Term → List Val → Option Term
  | .val v, _ => some (.val v)
  -- `arg.hpp` 15-24
  | .arg i n, vs => if vs.length = n then vs[i]?.map .val else none
  -- `operation_base.hpp` 50-54
  | .op o, vs => some (.expr (.op o) (vs.map .val))
  | .tuned t eps, vs => some (.expr (.tuned t eps) (vs.map .val))
  | .expr h args, vs =>
    if anyOperation args then (passAll args vs).map (.expr h) else some (.expr h args)

/-- `pass_arguments` to each. -/
def passAll : List Term → List Val → Option (List Term)
  | [], _ => some []
  | t :: ts, vs => (pass t vs).bind fun t' => (passAll ts vs).map (t' :: ·)

end

/-- The arguments of an operation: for `if_else` only the condition and the selected value are
evaluated (`evaluate.hpp` 40-47, `if_else.hpp` 16-25), otherwise all of them. -/
def choose (h : Term) (l : List (Option Val)) (k : List Val → Option Val) : Option Val :=
  match h, l with
  | .op .ifElse, [c, a, b] => c.bind fun x => if x.truth then a else b
  | _, l => (sequence l).bind k

/-- `eval`, `evaluate.hpp` 32-36 and 51-62, with `expression::evaluate`, `expression.hpp` 89-92. -/
def eval : Nat → Term → Option Val
  | 0, _ => none
  | _ + 1, .val v => some v
  | n + 1, .expr h args =>
    choose h (args.map (eval n)) fun vs =>
      (resolve n h (vs.map Val.ty) []).bind fun h' => match h' with
        | .op o => prim o vs
        | .expr _ _ => (pass h' vs).bind (eval n)
        | _ => none
  | _ + 1, _ => none

/-- An operation called with one `inout` argument, `operation_base.hpp` 68-78: the new value of the
target.  If an overload has a formula, `expression::evaluate_to` (`expression.hpp` 94-98) does not
compile, because it passes a temporary to `assign` (`evaluate.hpp` 64-68), which takes a reference to
non-const. -/
def callInout (n : Nat) (h : Term) (vs : List Val) : Option Val :=
  (resolve n h (vs.map Val.ty) []).bind fun h' => match h' with
    | .op o => prim o vs
    | _ => none

end Actl.Expr
