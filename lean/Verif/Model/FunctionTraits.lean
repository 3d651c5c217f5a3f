import Mathlib.Data.List.Basic

/-!
# Traits of function types

Model of `functional/traits/*.hpp` and `core/qualifiers/{copy,inner,detection}.hpp`: metafunctions
become functions on an inductive type of C++ types; a metafunction without a `type` is `none`.

Simplifications: class and scalar types are numbers with their qualifiers; arrays are left out;
qualifiers and references of pointer and function types are constructors of their own, which are
meant to be applied as C++ forms them (no reference to a reference, no `const` twice).
-/

namespace Actl.FnTraits

/-- A reference qualifier. -/
inductive Ref
  | none
  | lvalue
  | rvalue
deriving DecidableEq, Repr

/-- `const`, `volatile` and a reference. -/
structure Qual where
  const : Bool
  volatile : Bool
  ref : Ref
deriving DecidableEq, Repr

/-- Types. -/
inductive Ty
  /-- a class or scalar type, or a reference to it -/
  | obj (name : Nat) (q : Qual)
  /-- `Return(Parameters...)`, `Return(Parameters..., ...)`, possibly `noexcept` -/
  | fn (ret : Ty) (ps : List Ty) (va ne : Bool)
  /-- `Return (Class::*)(Parameters...) CV_REF` -/
  | mem (ret : Ty) (cls : Nat) (q : Qual) (ps : List Ty) (va ne : Bool)
  | ptr (t : Ty)
  | const (t : Ty)
  | volatile (t : Ty)
  | lref (t : Ty)
  | rref (t : Ty)

/-- `function_category`, `function_traits.hpp` 18. -/
inductive Category
  | free
  | member
  | object
deriving DecidableEq, Repr

/-- The members of `function_traits`, `function_traits.hpp` 20-27; `unique` is
`unique_parameters_t`, `parameters.hpp` 31-48. -/
structure Traits where
  category : Category
  ret : Ty
  params : List Ty
  unique : List Ty
  va : Bool
  ne : Bool

/-- `detail::class_t`, `MemberFunction.hpp` 78-79. -/
def classT (q : Qual) : Qual := if q.ref ≠ .none then q else { q with ref := .lvalue }

/-- `function_traits` of a member function, `MemberFunction.hpp` 84-97. -/
def memTraits (ret : Ty) (cls : Nat) (q : Qual) (ps : List Ty) (va ne : Bool) : Traits :=
  ⟨.member, ret, .obj cls (classT q) :: ps, .obj cls q :: ps, va, ne⟩

/-- `function_traits`.  `callOp` gives the type of `&T::operator()` for the classes that have exactly
one. -/
def traits (callOp : Nat → Option Ty) : Ty → Option Traits
  -- `FunctionObject.hpp` 35-51; through references by `function_traits.hpp` 29-35
  | .obj n _ =>
    match callOp n with
    | some (.mem ret cls q ps va ne) =>
      let m := memTraits ret cls q ps va ne
      some ⟨.object, m.ret, m.params.drop 1, m.params.drop 1, m.va, m.ne⟩
    | _ => none
  -- `FreeFunction.hpp` 47-57
  | .fn ret ps va ne => some ⟨.free, ret, ps, ps, va, ne⟩
  | .mem ret cls q ps va ne => some (memTraits ret cls q ps va ne)
  -- `FreeFunction.hpp` 35-36
  | .ptr t =>
    match traits callOp t with
    | some r => if r.category = .free then some r else none
    | none => none
  -- `FreeFunction.hpp` 33-34, `MemberFunction.hpp` 42-43
  | .const t =>
    match traits callOp t with
    | some r => if r.category = .free ∨ r.category = .member then some r else none
    | none => none
  | .volatile _ => none
  -- `function_traits.hpp` 29-35
  | .lref t => traits callOp t
  | .rref t => traits callOp t

/-- `assemble_function_t`, `assemble_function.hpp` 13-34, `FreeFunction.hpp` 59-67,
`MemberFunction.hpp` 99-108. -/
def assemble : Category → Ty → List Ty → Bool → Bool → Option Ty
  | .free, ret, ps, va, ne => some (.fn ret ps va ne)
  | .member, ret, .obj cls q :: ps, va, ne => some (.mem ret cls q ps va ne)
  | .member, _, _, _, _ => none
  | .object, _, _, _, _ => none

/-- `with_return_type_t`, `return.hpp` 19-28. -/
def withReturn (callOp : Nat → Option Ty) (t ret : Ty) : Option Ty :=
  (traits callOp t).bind fun r => assemble r.category ret r.unique r.va r.ne

/-- `with_return_type_t` of a `type_array`, `return.hpp` 29-37. -/
def withReturnArray (ps : List Ty) (ret : Ty) : Option Ty := assemble .free ret ps false false

/-- `add_noexcept_t`, `remove_noexcept_t`, `noexcept.hpp` 19-43. -/
def setNoexcept (callOp : Nat → Option Ty) (t : Ty) (b : Bool) : Option Ty :=
  (traits callOp t).bind fun r => assemble r.category r.ret r.unique r.va b

/-- `add_variadic_arguments_t`, `remove_variadic_arguments_t`, `variadic_arguments.hpp` 20-46. -/
def setVariadic (callOp : Nat → Option Ty) (t : Ty) (b : Bool) : Option Ty :=
  (traits callOp t).bind fun r => assemble r.category r.ret r.unique b r.ne

/-- `as_free_function_t`, `assemble_function.hpp` 36-48. -/
def asFree (callOp : Nat → Option Ty) (t : Ty) : Option Ty :=
  (traits callOp t).bind fun r => assemble .free r.ret r.params r.va r.ne

/-- `detail::modify_class_t`, `member_traits.hpp` 56-81, for a modifier of qualifiers. -/
def modifyClass (callOp : Nat → Option Ty) (f : Qual → Qual) (t : Ty) : Option Ty :=
  (traits callOp t).bind fun r =>
    if r.category = .member then
      match r.unique with
      | .obj cls q :: ps => assemble .member r.ret (.obj cls (f q) :: ps) r.va r.ne
      | _ => none
    else none

/-- `add_inner_const`, `inner.hpp` 15-18 and 60-67: the same for values and references. -/
def addInnerConst (q : Qual) : Qual :=
  match q.ref with
  | .none => { q with const := true }
  | .lvalue => ⟨true, q.volatile, .lvalue⟩
  | .rvalue => ⟨true, q.volatile, .rvalue⟩

/-- `remove_inner_const`, `inner.hpp` 22-25 and 69-76: the specializations are for references to
`const`. -/
def removeInnerConst (q : Qual) : Qual :=
  match q.ref, q.const with
  | .lvalue, true => ⟨false, q.volatile, .lvalue⟩
  | .rvalue, true => ⟨false, q.volatile, .rvalue⟩
  -- `std::remove_const_t` of a reference is the reference
  | .lvalue, false => q
  | .rvalue, false => q
  | .none, _ => { q with const := false }

/-- `add_inner_volatile`, `inner.hpp` 31-34 and 78-85. -/
def addInnerVolatile (q : Qual) : Qual :=
  match q.ref with
  | .none => { q with volatile := true }
  | .lvalue => ⟨q.const, true, .lvalue⟩
  | .rvalue => ⟨q.const, true, .rvalue⟩

/-- `remove_inner_volatile`, `inner.hpp` 38-41 and 87-94. -/
def removeInnerVolatile (q : Qual) : Qual :=
  match q.ref, q.volatile with
  | .lvalue, true => ⟨q.const, false, .lvalue⟩
  | .rvalue, true => ⟨q.const, false, .rvalue⟩
  | .lvalue, false => q
  | .rvalue, false => q
  | .none, _ => { q with volatile := false }

/-- `add_inner_cv`, `inner.hpp` 47-48. -/
def addInnerCv (q : Qual) : Qual := addInnerConst (addInnerVolatile q)

/-- `remove_inner_cv`, `inner.hpp` 52-54. -/
def removeInnerCv (q : Qual) : Qual := removeInnerConst (removeInnerVolatile q)

/-- `std::remove_reference`. -/
def removeReference (q : Qual) : Qual := { q with ref := .none }

/-- `std::add_lvalue_reference`. -/
def addLvalue (q : Qual) : Qual := { q with ref := .lvalue }

/-- `std::add_rvalue_reference`: references collapse. -/
def addRvalue (q : Qual) : Qual :=
  match q.ref with
  | .lvalue => q
  | _ => { q with ref := .rvalue }

/-- `copy_reference`, `copy.hpp` 13-18 and 54-67: the partial specializations, the ones for a
reference target being chosen first because of `requires`. -/
def copyReference (target source : Qual) : Qual :=
  let target := removeReference target
  match source.ref with
  | .lvalue => { target with ref := .lvalue }
  | .rvalue => { target with ref := .rvalue }
  | .none => target

/-- `copy_const`, `copy.hpp` 20-25 and 69-75, of types that are not references. -/
def copyConst (target source : Qual) : Qual :=
  let target := { target with const := false }
  if source.const then { target with const := true } else target

/-- `copy_volatile`, `copy.hpp` 27-32 and 77-84, of types that are not references. -/
def copyVolatile (target source : Qual) : Qual :=
  let target := { target with volatile := false }
  if source.volatile then { target with volatile := true } else target

/-- `copy_cvref`, `copy.hpp` 34-50. -/
def copyCvref (target source : Qual) : Qual :=
  let t := removeReference target
  let s := removeReference source
  copyReference (copyConst (copyVolatile t s) s) source

/-- `as_member_of_t`, `member_traits.hpp` 26-37 and 85-105, for functions: a class with
qualifiers. -/
def asMemberOf (callOp : Nat → Option Ty) (t : Ty) (cls : Nat) (q : Qual) : Option Ty :=
  (traits callOp t).bind fun r =>
    match r.category with
    | .free => assemble .member r.ret ([.obj cls q] ++ r.params) r.va r.ne
    | .member =>
      match r.unique with
      | .obj _ q' :: ps => assemble .member r.ret (.obj cls (copyCvref q q') :: ps) r.va r.ne
      | _ => none
    -- a member data pointer, which is not a function
    | .object => none

/-- `class_of_t` of a member function, `member_traits.hpp` 41-44. -/
def classOf (callOp : Nat → Option Ty) (t : Ty) : Option Ty :=
  (traits callOp t).bind fun r =>
    if r.category = .member then
      match r.params with
      | .obj cls _ :: _ => some (.obj cls ⟨false, false, .none⟩)
      | _ => none
    else none

end Actl.FnTraits
