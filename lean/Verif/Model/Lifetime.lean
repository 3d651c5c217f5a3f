import Mathlib.Data.List.Basic

/-!
# What an expression stores, and when it is read

Model of `operation/expression/{value_if_cheap,expression_data,expression,evaluate}.hpp` and of `operator()` of
`operation/operation/operation_base.hpp` as far as objects and their lifetimes are concerned.

Simplifications.
* An object is a number, an operation or an expression. Its type is there only by the answer to `is_copy_cheap`, which
  depends on the size of the type and on the implementation of `std::tuple`; it is a parameter of every object.
* An operation is a function on the list of the values of its arguments; resolution of overloads, operations as
  arguments of expressions and `is_argument_maybe_unused` are those of `Model/Expression.lean` and not repeated.
* Numbers can be assigned to; expressions cannot (those with a reference among their arguments have no assignment).
* `none` stands for undefined behaviour (access to an object after its lifetime) and for ill-typed programs.
-/

namespace Actl.Lifetime

/-- A value which is no expression: a number or an operation. -/
inductive Base
  | num (v : Int)
  | fn (f : List Int → Int)

/-- What is stored: `std::tuple<Args...> arguments` and `Op operation` of `expression_data`
(`expression_data.hpp:35-44`) hold values, references to objects, and expressions. -/
inductive Node
  | base (b : Base)
  /-- a member of type `T const&` -/
  | ref (o : Nat)
  | app (op : Node) (args : List Node)

/-- An object: whether it is within its lifetime, whether copies of its type are cheap, and its content. -/
structure Obj where
  alive : Bool
  cheap : Bool
  content : Node

/-- The objects in the order of their creation. -/
abbrev State := List Obj

/-- What is written in the program: the name of an object, a temporary, or a call of an operation. -/
inductive Src
  | lval (o : Nat)
  | rval (b : Base)
  | call (op : Src) (args : List Src)

/-- `value_if_cheap_t<Ts>` applied to the arguments of `expression` (`value_if_cheap.hpp:11-28`, `expression.hpp:41-42`,
`expression_data.hpp:48-57`) by `operator()` (`operation_base.hpp:50-59`). An r-value is moved into the expression; an
l-value is copied if that is cheap, and referred to otherwise. The operation is passed in the same way. -/
def store (s : State) : Src → Option Node
  | .lval o =>
    match s[o]? with
    | some obj => if obj.alive then some (if obj.cheap then obj.content else .ref o) else none
    | none => none
  | .rval b => some (.base b)
  | .call op args => (store s op).bind fun op => (storeAll s args).map fun args => .app op args
where
  /-- The arguments, from left to right. -/
  storeAll (s : State) : List Src → Option (List Node)
  | [] => some []
  | a :: as => (store s a).bind fun n => (storeAll s as).map fun ns => n :: ns

mutual

/-- `eval` (`evaluate.hpp:32-36`, `:51-62`) with `argument_at` (`:40-47`). The number is a bound on the objects which
can be referred to: an object is referred to only by later ones, so it is not a restriction (`Props/Lifetime.lean`). -/
def eval (s : State) (k : Nat) : Node → Option Base
  | .base b => some b
  | .ref o =>
    if _h : o < k then
      match s[o]? with
      | some obj => if obj.alive then eval s o obj.content else none
      | none => none
    else none
  | .app op args =>
    match eval s k op with
    | some (.fn f) => (evalAll s k args).map fun vs => .num (f vs)
    | _ => none
termination_by n => (k, sizeOf n)

/-- The values of the arguments. -/
def evalAll (s : State) (k : Nat) : List Node → Option (List Int)
  | [] => some []
  | n :: ns =>
    match eval s k n with
    | some (.num v) => (evalAll s k ns).map fun vs => v :: vs
    | _ => none
termination_by ns => (k, sizeOf ns)

end

/-- The statements of a program. -/
inductive Stmt
  /-- a number or an operation with a name -/
  | create (cheap : Bool) (b : Base)
  /-- `auto e = op(args...);` -/
  | build (cheap : Bool) (op : Src) (args : List Src)
  /-- `x = v;` -/
  | assign (o : Nat) (v : Int)
  /-- the end of the lifetime -/
  | destroy (o : Nat)

/-- The effect of a statement. -/
def step (s : State) : Stmt → Option State
  | .create c b => some (s ++ [⟨true, c, .base b⟩])
  | .build c op args => (store s (.call op args)).map fun n => s ++ [⟨true, c, n⟩]
  | .assign o v =>
    match s[o]? with
    | some ⟨true, c, .base (.num _)⟩ => some (s.set o ⟨true, c, .base (.num v)⟩)
    | _ => none
  | .destroy o =>
    match s[o]? with
    | some ⟨true, c, n⟩ => some (s.set o ⟨false, c, n⟩)
    | _ => none

/-- The state after a program. -/
def run : State → List Stmt → Option State
  | s, [] => some s
  | s, st :: sts => (step s st).bind fun s => run s sts

/-- `eval(e)` for a named object. -/
def evalNamed (s : State) (o : Nat) : Option Base :=
  match s[o]? with
  | some obj => if obj.alive then eval s o obj.content else none
  | none => none

end Actl.Lifetime
