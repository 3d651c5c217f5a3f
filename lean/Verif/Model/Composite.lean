import Verif.Model.Expression

/-!
# Comparisons of ranges and tuples, with policies

Model of `operation/operation/composite_operation.hpp`, `range/operation/{is_equal_range,
lexicographical_compare_range}.hpp`, `sequence/tuple/{is_equal_tuple,lexicographical_compare_tuple,resolver}.hpp` and
of what `operation/overload`, `operation/policy` and `operation/expression` do with them.  Comparisons of two scalars
are those of `Model/Expression.lean`.

Simplifications.
* `none` stands for a program that does not compile, or not enough fuel.
* Ranges and tuples are different things: for a type that is both (`std::array`) the overloads are ambiguous.
* Ranges and tuples have an own `<`, as standard containers and tuples do; that it may be missing (for operands of
  different types, say) is not modelled.
* The only policy is `absolute_error`.
-/

namespace Actl.Composite

open Actl.Expr (Ty Val Term)

/-- Types of arguments; `op` is the type of any operation. -/
inductive Shape
  | scalar (t : Ty)
  | range (e : Shape)
  | tuple (es : List Shape)
  | op

/-- Scalars, ranges and tuples. -/
inductive Data
  | num (v : Val)
  | range (xs : List Data)
  | tuple (xs : List Data)

/-- The operations named by users. -/
inductive Cmp
  | isEqual | isLess | isGreater | cmp3 | lnot
  deriving DecidableEq

/-- The same operation on scalars. -/
def Cmp.scalarOp : Cmp → Expr.Op
  | .isEqual => .isEqual
  | .isLess => .isLess
  | .isGreater => .isGreater
  | .cmp3 => .cmp3
  | .lnot => .lnot

/-- The outer operations of the composites. -/
inductive Outer
  | eqRange | eqTuple | lexRange | lexTuple
  deriving DecidableEq

/-- Operations and expressions of operations.  `leaf` is an operation on scalars, `isLessS` is `is_less_scalar`
applied to anything, `zero` is `0_c`, `comp` is `composite_operation`, `composite_operation.hpp:13-32`. -/
inductive CTerm
  | leaf (t : Term)
  | isLessS
  | op (o : Cmp)
  | arg (i : Nat)
  | zero
  | comp (o : Outer) (inner : List CTerm)
  | expr (h : CTerm) (args : List CTerm)

/-- `is_not_equal`, `equality.hpp:25`. -/
def isNotEqual : CTerm := .expr (.op .lnot) [.op .isEqual]

/-- `is_less_or_equal`, `ordering.hpp:59`. -/
def isLessOrEqual : CTerm := .expr (.op .lnot) [.op .isGreater]

/-- `is_greater_or_equal`, `ordering.hpp:67`. -/
def isGreaterOrEqual : CTerm := .expr (.op .lnot) [.op .isLess]

mutual

/-- `can_apply_policy_v` for `absolute_error`: `absolute_error.hpp:23-31`, and for a composite
`composite_operation.hpp:53-54`. -/
def canApply : CTerm → Bool
  | .leaf t => Expr.canApply t
  | .isLessS => true
  | .comp _ inner => canApplyAny inner
  | _ => false

/-- The policy can be applied to one of them. -/
def canApplyAny : List CTerm → Bool
  | [] => false
  | t :: ts => canApply t || canApplyAny ts

end

mutual

/-- `apply_policy_if_can`, `policy.hpp:22-31`, with `apply_policy` of a composite, `composite_operation.hpp:46-61`.
For `is_less_scalar` see `resolve`. -/
def applyIfCan (eps : Rat) : CTerm → CTerm
  | .leaf t => .leaf (Expr.applyIfCan eps t)
  | .comp o inner => if canApplyAny inner then .comp o (applyAllIfCan eps inner) else .comp o inner
  | t => t

/-- `apply_policy_if_can` for each. -/
def applyAllIfCan (eps : Rat) : List CTerm → List CTerm
  | [] => []
  | t :: ts => applyIfCan eps t :: applyAllIfCan eps ts

end

/-- The types, if all are scalars. -/
def scalars : List Shape → Option (List Ty)
  | [] => some []
  | .scalar t :: ss => (scalars ss).map (t :: ·)
  | _ => none

/-- One of them is `0_c`, which is not an operation. -/
def hasZero : List CTerm → Bool
  | [] => false
  | .zero :: _ => true
  | _ :: ts => hasZero ts

/-- The composer of tuples, `resolver.hpp:17-28`: the operation is resolved for the elements at each position; a
static assertion for different sizes. -/
def pairwise (f : Shape → Shape → Option CTerm) : List Shape → List Shape → Option (List CTerm)
  | [], [] => some []
  | a :: as, b :: bs => (f a b).bind fun t => (pairwise f as bs).map (t :: ·)
  | _, _ => none

/-- `overload_resolver<Op, ArgsArray, Policy>::resolve`, `overload/resolve_overload.hpp:15-53`,
`overload/resolve_expression.hpp:28-59`, `policy/resolve_overload.hpp:15-41`; the policies are in the order in which
they are applied.
* For scalars as in `Model/Expression.lean`.
* An overload for ranges or tuples: `is_equal_range.hpp:32-37`, `is_equal_tuple.hpp:32-36`,
  `lexicographical_compare_range.hpp:39-49`, `lexicographical_compare_tuple.hpp:34-44`.  The operation for the elements
  is resolved without policies.  Otherwise the default formulas, `ordering.hpp:35`, `:48`; `compare3way` has one too,
  which is of no use for a range and a scalar, say.
* `is_less_scalar` with `absolute_error` becomes `epsilon < r - l`, and there is no difference of ranges or tuples.
* An expression with the argument `0_c` is taken for resolved (see `Model/Expression.lean`); in other expressions
  the arguments are resolved for the given types and the operation for the types of the arguments. -/
def resolve : Nat → CTerm → List Shape → List Rat → Option CTerm
  | 0, _, _, _ => none
  | n + 1, .op o, shs, ps =>
    match scalars shs with
    | some tys => (Expr.resolve n (.op o.scalarOp) tys ps).map .leaf
    | none =>
      match o, shs with
      | .isEqual, [.range a, .range b] =>
        (resolve n (.op .isEqual) [a, b] []).bind fun i => resolve n (.comp .eqRange [i]) shs ps
      | .isEqual, [.tuple as, .tuple bs] =>
        (pairwise (fun a b => resolve n (.op .isEqual) [a, b] []) as bs).bind fun is =>
          resolve n (.comp .eqTuple is) shs ps
      | .cmp3, [.range a, .range b] =>
        (resolve n (.op .cmp3) [a, b] []).bind fun i => resolve n (.comp .lexRange [i]) shs ps
      | .cmp3, [.tuple as, .tuple bs] =>
        (pairwise (fun a b => resolve n (.op .cmp3) [a, b] []) as bs).bind fun is =>
          resolve n (.comp .lexTuple is) shs ps
      | .isLess, [.range _, .range _] => resolve n (.expr (.op .isLess) [.op .cmp3, .zero]) shs ps
      | .isLess, [.tuple _, .tuple _] => resolve n (.expr (.op .isLess) [.op .cmp3, .zero]) shs ps
      | .isLess, _ => resolve n .isLessS shs ps
      | .isGreater, _ => resolve n (.expr (.op .isLess) [.arg 1, .arg 0]) shs ps
      | .lnot, _ => some (.op .lnot)
      | _, _ => none
  | _ + 1, .leaf t, _, _ => some (.leaf t)
  | _ + 1, .isLessS, _, ps => if ps = [] then some .isLessS else none
  | _ + 1, .arg i, _, _ => some (.arg i)
  | _ + 1, .zero, _, _ => some .zero
  | n + 1, .comp o inner, shs, ps =>
    match ps with
    | [] => some (.comp o inner)
    | p :: ps => if canApply (.comp o inner) then resolve n (applyIfCan p (.comp o inner)) shs ps
      else some (.comp o inner)
  | n + 1, .expr h args, shs, ps =>
    if hasZero args then some (.expr h args)
    else (Expr.sequence (args.map fun a => resolve n a shs ps)).bind fun args' =>
      (resolve n h (args'.map fun _ => .op) ps).map fun h' => .expr h' args'

/-! ### Evaluation of composites -/

/-- `IsEqualRange::evaluate`, `is_equal_range.hpp:18-27`: `std::equal`. -/
def equalRange (f : Data → Data → Option Val) : List Data → List Data → Option Val
  | [], [] => some (.bool true)
  | x :: xs, y :: ys => (f x y).bind fun v => if v.truth then equalRange f xs ys else some (.bool false)
  | _, _ => some (.bool false)

/-- `IsEqualTuple::evaluate_impl`, `is_equal_tuple.hpp:18-23`; the list holds the comparisons at each position. -/
def equalTuple : List (Option Val) → Option Val
  | [] => some (.bool true)
  | c :: cs => c.bind fun v => if v.truth then equalTuple cs else some (.bool false)

/-- `LexicographicalCompareRange::evaluate`, `lexicographical_compare_range.hpp:19-34`. -/
def lexRange (f : Data → Data → Option Val) : List Data → List Data → Option Val
  | x :: xs, y :: ys => (f x y).bind fun v => v.toInt?.bind fun i => if i ≠ 0 then some (.int i) else lexRange f xs ys
  | xs, ys => some (.int ((if ys.isEmpty then 0 else 1) - (if xs.isEmpty then 0 else 1)))

/-- `LexicographicalCompareTuple::evaluate`, `lexicographical_compare_tuple.hpp:20-29`.  The later positions are
compared first, `if_else` then selects. -/
def lexTuple : List (Option Val) → Option Val
  | [] => none
  | [c] => c.bind fun v => v.toInt?.map .int
  | c :: cs => c.bind fun v => v.toInt?.bind fun i => (lexTuple cs).map fun w => if i = 0 then w else .int i

/-- The calls of the inner operations of a composite of tuples. -/
def zipCalls (f : CTerm → Data × Shape → Data × Shape → Option Val) :
    List CTerm → List Data → List Shape → List Data → List Shape → List (Option Val)
  | t :: ts, x :: xs, a :: as, y :: ys, b :: bs => f t (x, a) (y, b) :: zipCalls f ts xs as ys bs
  | _, _, _, _, _ => []

/-- `composite_operation::evaluate`, `composite_operation.hpp:25-31`.  A single inner operation is passed as it is
and not as a tuple; then `get<0>(ops)` of the operations on tuples does not compile. -/
def composite (f : CTerm → Data × Shape → Data × Shape → Option Val) :
    Outer → List CTerm → Data × Shape → Data × Shape → Option Val
  | .eqRange, [t], (.range xs, .range a), (.range ys, .range b) => equalRange (fun x y => f t (x, a) (y, b)) xs ys
  | .lexRange, [t], (.range xs, .range a), (.range ys, .range b) => lexRange (fun x y => f t (x, a) (y, b)) xs ys
  | .eqTuple, ts, (.tuple xs, .tuple as), (.tuple ys, .tuple bs) =>
    if ts.length = 1 then none else equalTuple (zipCalls f ts xs as ys bs)
  | .lexTuple, ts, (.tuple xs, .tuple as), (.tuple ys, .tuple bs) =>
    if ts.length = 1 then none else lexTuple (zipCalls f ts xs as ys bs)
  | _, _, _, _ => none

mutual

/-- The own three-way comparison of standard containers and tuples: the first different elements decide, a proper
prefix is less. -/
def ownOrder : Data → Data → Ordering
  | .num a, .num b => if a.num < b.num then .lt else if a.num = b.num then .eq else .gt
  | .range xs, .range ys => ownOrderAll xs ys
  | .tuple xs, .tuple ys => ownOrderAll xs ys
  | _, _ => .eq

@[inherit_doc ownOrder] def ownOrderAll : List Data → List Data → Ordering
  | [], [] => .eq
  | [], _ :: _ => .lt
  | _ :: _, [] => .gt
  | x :: xs, y :: ys => match ownOrder x y with
    | .eq => ownOrderAll xs ys
    | o => o

end

/-- The values of scalars. -/
def numbers : List (Data × Shape) → Option (List Val)
  | [] => some []
  | (.num v, _) :: xs => (numbers xs).map (v :: ·)
  | _ => none

/-- `is_less_scalar` on two arguments, `ordering.hpp:23-26`: the built-in or the own `<`. -/
def callLess : List (Data × Shape) → Option Val
  | [(x, _), (y, _)] => some (.bool (ownOrder x y == .lt))
  | _ => none

/-- `pass_arguments` to an argument of an expression, evaluated: `expression.hpp:49-60`, `arg.hpp:15-24`. -/
def passTo (args : List (Data × Shape)) (call : CTerm → Option Val) : CTerm → Option (Data × Shape)
  | .arg i => args[i]?
  | .zero => some (.num (.const 0), .scalar .const)
  | t => (call t).map fun v => (.num v, .scalar v.ty)

mutual

/-- A call of an operation, evaluated: `operation_base.hpp:50-54` and `evaluate.hpp:51-62`. -/
def eval : Nat → CTerm → List (Data × Shape) → Option Val
  | 0, _, _ => none
  | n + 1, t, args => (resolve n t (args.map Prod.snd) []).bind fun t' => run n t' args

/-- `evaluate` of a resolved operation: of a composite, or `expression::evaluate`, `expression.hpp:89-92`, which
passes the arguments to the operations in the expression, `expression.hpp:62-72`. -/
def run : Nat → CTerm → List (Data × Shape) → Option Val
  | n, .leaf t, args => (numbers args).bind fun vs => Expr.eval n (.expr t (vs.map .val))
  | _, .isLessS, args => callLess args
  | 0, _, _ => none
  | n + 1, .comp o inner, args =>
    match args with
    | [x, y] => composite (fun t x y => eval n t [x, y]) o inner x y
    | _ => none
  | n + 1, .expr h ts, args =>
    (Expr.sequence (ts.map (passTo args fun t => eval n t args))).bind fun vs => eval n h vs
  | _ + 1, .op _, _ => none
  | _ + 1, .arg _, _ => none
  | _ + 1, .zero, _ => none

end

/-- A comparison with policies called with two arguments, `tuned_operation.hpp:13-27`: `(op | p₁ | p₂)(x, y)`. -/
def call (n : Nat) (t : CTerm) (ps : List Rat) (x y : Data × Shape) : Option Val :=
  (resolve n t [x.2, y.2] ps).bind fun t' => run n t' [x, y]

end Actl.Composite
