import Mathlib.Data.List.Basic

/-!
Model of `functional/tuple/invoke_first_matching.hpp` and `invoke_all_matching.hpp`.

Only what decides which elements of the tuple are invoked is modelled: whether an expression binds to
a parameter.  There are no conversions between different types, objects can be copied, and an overload
set with a viable overload is taken to be invocable (no ambiguity).  Elements of the tuple are objects.
-/

namespace Actl.Match

/-- The category of an expression: whether it is an lvalue (otherwise an rvalue), and whether its type
is const. -/
structure Cat where
  lvalue : Bool
  const : Bool
deriving DecidableEq, Repr

/-- An argument: its type without qualifiers, and its category. -/
structure Arg where
  ty : Nat
  cat : Cat
deriving DecidableEq, Repr

/-- The forms of a parameter: `T`, `T&`, `T const&`, `T&&`, `T const&&`. -/
inductive Form | value | lref | clref | rref | crref
deriving DecidableEq, Repr

/-- A parameter of a given type, or of a deduced one (`auto`, `auto&`, ...; `auto&&` takes any). -/
inductive Param
  | of (ty : Nat) (form : Form)
  | auto (form : Form)
  | any
deriving DecidableEq, Repr

/-- Whether a reference of this form binds to an expression of the same type, [dcl.init.ref]. -/
def Form.binds : Form → Cat → Bool
  | .value, _ => true
  | .lref, c => c.lvalue && !c.const
  | .clref, _ => true
  | .rref, c => !c.lvalue && !c.const
  | .crref, c => !c.lvalue

/-- Whether the parameter takes the argument; `auto&` deduces `T const` from a const argument. -/
def Param.takes : Param → Arg → Bool
  | .of t f, a => a.ty == t && f.binds a.cat
  | .auto .lref, a => a.cat.lvalue || a.cat.const
  | .auto f, a => f.binds a.cat
  | .any, _ => true

/-- The reference qualifier of a member function. -/
inductive RefQual | none | lvalue | rvalue
deriving DecidableEq, Repr

/-- An overload of `operator()`: its parameters and qualifiers. -/
structure Overload where
  params : List Param
  const : Bool
  ref : RefQual
deriving DecidableEq, Repr

/-- Whether an overload can be called on an object of the category. -/
def Overload.selfOk (o : Overload) (self : Cat) : Bool :=
  (o.const || !self.const) &&
    match o.ref with
    | .none => true
    | .lvalue => self.lvalue || o.const
    | .rvalue => !self.lvalue

/-- Whether an overload is viable for the object and the arguments. -/
def Overload.viable (o : Overload) (self : Cat) (args : List Arg) : Bool :=
  o.selfOk self && o.params.length == args.length && (o.params.zip args).all fun p => p.1.takes p.2

/-- An element of the tuple. -/
abbrev Fn := List Overload

/-- `is_invocable_v`, for an object of the category and the arguments. -/
def invocable (f : Fn) (self : Cat) (args : List Arg) : Bool := f.any fun o => o.viable self args

/-- `find_first_matching`, `invoke_first_matching.hpp:14-25`: the element is taken as an rvalue that is
not const, whatever the tuple; `none` is the failed `static_assert`. -/
def findFirst (fs : List Fn) (args : List Arg) : Option Nat :=
  let go := fs.findIdx fun f => invocable f ⟨false, false⟩ args
  if go < fs.length then some go else none

/-- `invoke_first_matching`, `invoke_first_matching.hpp:31-40`, of a tuple of the category: the element
invoked.  `none`: does not compile. -/
def invokeFirst (tuple : Cat) (fs : List Fn) (args : List Arg) : Option Nat :=
  (findFirst fs args).bind fun i =>
    (fs[i]?).bind fun f => if invocable f tuple args then some i else none

/-- `invoke_if_can`, `invoke_all_matching.hpp:17-25`: whether the element is invoked.  `args` are
lvalues, `Args...` their types without the reference: `is_invocable_v<T, Args...>` asks about rvalues;
then the declared return type asks about the call. -/
def invokeIfCan (self : Cat) (f : Fn) (args : List Arg) : Bool :=
  invocable f self (args.map fun a => ⟨a.ty, ⟨false, a.cat.const⟩⟩) && invocable f self args

/-- `invoke_all_matching`, `invoke_all_matching.hpp:27-48`: the elements invoked, in order.  The
arguments are passed on as lvalues. -/
def invokeAll (tuple : Cat) (fs : List Fn) (args : List Arg) : List Nat :=
  (List.range fs.length).filter fun i =>
    invokeIfCan tuple (fs.getD i []) (args.map fun a => ⟨a.ty, ⟨true, a.cat.const⟩⟩)

end Actl.Match
