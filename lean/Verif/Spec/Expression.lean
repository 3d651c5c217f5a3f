import Verif.Model.Expression
import Mathlib.Data.Rat.Floor

/-!
# The meaning of expressions

An expression that contains operations is a function: operations in place of arguments are applied to
the arguments of the whole (`(f + g)(x) = f(x) + g(x)`), and `l_`, `r_`, `x_` are projections.
-/

namespace Actl.Expr

/-- The sign of a number. -/
def sign (q : Rat) : Int := if 0 < q then 1 else if q < 0 then -1 else 0

/-- Rounding towards zero. -/
def trunc (q : Rat) : Int := if 0 ≤ q then ⌊q⌋ else ⌈q⌉

/-- The number as the result of a built-in operator of C++ for two operands: an integer if both are
integers, else a floating point number. -/
def result (a b : Val) (q : Rat) : Option Val :=
  if a.ty.integral && b.ty.integral then some (.int (trunc q))
  else if a.ty.arithmetic && b.ty.arithmetic then some (.real q) else none

/-- The meaning of the operations named by users and of their overloads.  `add` and `multiply` are for
two integers or two floating point numbers. -/
def opMeaning : Op → List Val → Option Val
  | .add, [a, b] =>
    if (a.ty.integral && b.ty.integral) ∨ (a.ty = .real ∧ b.ty = .real) then
      result a b (a.num + b.num) else none
  | .mul, [a, b] =>
    if (a.ty.integral && b.ty.integral) ∨ (a.ty = .real ∧ b.ty = .real) then
      result a b (a.num * b.num) else none
  | .addInt, [a, b] | .addFloat, [a, b] => result a b (a.num + b.num)
  | .mulInt, [a, b] | .mulFloat, [a, b] => result a b (a.num * b.num)
  | .sub, [a, b] | .subS, [a, b] => result a b (a.num - b.num)
  | .div, [a, b] | .divS, [a, b] => if b.num = 0 then none else result a b (a.num / b.num)
  | .neg, [a] | .negS, [a] => result a a (-a.num)
  | .abs, [a] | .absS, [a] => if a.ty = .bool then some a else result a a |a.num|
  | .lnot, [.bool a] | .lnotS, [.bool a] => some (.bool !a)
  | .land, [.bool a, .bool b] | .landS, [.bool a, .bool b] => some (.bool (a && b))
  | .lor, [.bool a, .bool b] | .lorS, [.bool a, .bool b] => some (.bool (a || b))
  | .isEqual, [a, b] =>
    if a.ty.arithmetic && b.ty.arithmetic then some (.bool (a.num = b.num)) else none
  | .isEqualS, [a, b] => some (.bool (a.num = b.num))
  | .isLess, [a, b] | .isLessS, [a, b] => some (.bool (a.num < b.num))
  | .isGreater, [a, b] => some (.bool (b.num < a.num))
  | .cmp3, [a, b] | .cmp3S, [a, b] => some (.int (sign (a.num - b.num)))
  | .sgn, [a] => if a.ty.arithmetic then some (.int (sign a.num)) else none
  | .sgnS, [a] => some (.int (sign a.num))
  | .squared, [a] => result a a (a.num * a.num)
  | .asInt, [a] => some (.int (trunc a.num))
  | .ifElse, [c, a, b] => some (if c.num ≠ 0 then a else b)
  | _, _ => none

/-- An operation applied to arguments some of which may have no value: `if_else` needs the condition
and the selected value, all other operations need all. -/
def apply (h : Term) (f : List Val → Option Val) : List (Option Val) → Option Val
  | [c, a, b] => match h with
    | .op .ifElse => c.bind fun x => if x.num ≠ 0 then a else b
    | _ => (sequence [c, a, b]).bind f
  | l => (sequence l).bind f

mutual

/-- The meaning of a term as a function of the arguments. -/
def meaning : Term → List Val → Option Val
  | .val v, _ => some v
  | .arg i n, vs => if vs.length = n then vs[i]? else none
  | .op o, vs => opMeaning o vs
  | .tuned _ _, _ => none
  | .expr h args, vs => apply h (meaning h) (meaningAll args vs)

/-- The meanings of several terms. -/
def meaningAll : List Term → List Val → List (Option Val)
  | [], _ => []
  | t :: ts, vs => meaning t vs :: meaningAll ts vs

end

mutual

/-- There is no policy in the term. -/
def Plain : Term → Prop
  | .val _ | .arg _ _ | .op _ => True
  | .tuned _ _ => False
  | .expr h args => Plain h ∧ PlainAll args

/-- There is no policy in the terms. -/
def PlainAll : List Term → Prop
  | [] => True
  | t :: ts => Plain t ∧ PlainAll ts

end

/-- The number of arguments of an operation. -/
def arity : Op → Nat
  | .neg | .negS | .lnot | .lnotS | .sgn | .sgnS | .abs | .absS | .squared | .asInt => 1
  | .ifElse => 3
  | _ => 2

/-- The term is a single argument. -/
def isArg : Term → Prop
  | .arg _ _ => True
  | _ => False

mutual

/-- The term takes `k` arguments: all the operations in it get as many arguments as they take. -/
def Takes (k : Nat) : Term → Prop
  | .val _ => True
  | .arg i n => n = k ∧ i < n
  | .op o => k = arity o
  | .tuned t _ => Takes k t
  | .expr h args => (isOperation h ∧ ¬ isArg h ∧ Takes args.length h) ∧ TakesAll k args

/-- The terms take `k` arguments. -/
def TakesAll (k : Nat) : List Term → Prop
  | [] => True
  | t :: ts => Takes k t ∧ TakesAll k ts

end

end Actl.Expr
