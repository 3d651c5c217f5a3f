import Mathlib.Data.List.Basic

/-!
# Rebinding the element type of a container

Model of `meta/rebind.hpp`, `meta/template_type.hpp`, the specializations for `std::array` of `std/array.hpp` and
for `hash_function` of `numeric/hash.hpp`, and `rebind_container_t` of `container/traits.hpp`: the metafunctions become functions on an inductive type of C++ types.

Simplifications: of qualified types only `T const` is there; templates with parameters which are not types are left
out, apart from arrays and `std::array`; specializations of `rebind` by users of the library are left out.
-/

namespace Actl.Rebind

/-- The name of a class template all parameters of which are types: the three which `rebind` is specialized for, and the
others. -/
inductive Tmpl
  | less
  | equalTo
  | hashFunction
  | named (name : Nat)
deriving DecidableEq, Repr

/-- Types. -/
inductive Ty
  /-- a type which is no specialization of a template -/
  | atom (name : Nat)
  /-- `T const` -/
  | const (t : Ty)
  /-- `T[N]` -/
  | arr (t : Ty) (n : Nat)
  /-- `std::array<T, N>` -/
  | stdArray (t : Ty) (n : Nat)
  /-- `C<Ts...>` -/
  | spec (c : Tmpl) (args : List Ty)

mutual

/-- `std::is_same_v`. -/
def Ty.decEq : (a b : Ty) → Decidable (a = b)
  | .atom x, b =>
    match b with
    | .atom y => decidable_of_iff (x = y) (by simp)
    | .const _ | .arr _ _ | .stdArray _ _ | .spec _ _ => isFalse (by simp)
  | .const x, b =>
    match b with
    | .const y => have := Ty.decEq x y; decidable_of_iff (x = y) (by simp)
    | .atom _ | .arr _ _ | .stdArray _ _ | .spec _ _ => isFalse (by simp)
  | .arr x n, b =>
    match b with
    | .arr y m => have := Ty.decEq x y; decidable_of_iff (x = y ∧ n = m) (by simp)
    | .atom _ | .const _ | .stdArray _ _ | .spec _ _ => isFalse (by simp)
  | .stdArray x n, b =>
    match b with
    | .stdArray y m => have := Ty.decEq x y; decidable_of_iff (x = y ∧ n = m) (by simp)
    | .atom _ | .const _ | .arr _ _ | .spec _ _ => isFalse (by simp)
  | .spec c xs, b =>
    match b with
    | .spec d ys => have := Ty.decEqList xs ys; decidable_of_iff (c = d ∧ xs = ys) (by simp)
    | .atom _ | .const _ | .arr _ _ | .stdArray _ _ => isFalse (by simp)

/-- `std::is_same_v` of the types of two lists. -/
def Ty.decEqList : (a b : List Ty) → Decidable (a = b)
  | [], b =>
    match b with
    | [] => isTrue rfl
    | _ :: _ => isFalse (by simp)
  | x :: xs, b =>
    match b with
    | [] => isFalse (by simp)
    | y :: ys =>
      have := Ty.decEq x y
      have := Ty.decEqList xs ys
      decidable_of_iff (x = y ∧ xs = ys) (by simp)

end

instance : DecidableEq Ty := Ty.decEq

/-- `void`. -/
def void : Ty := .atom 0

/-- `ac::none` (`core/none.hpp`). -/
def noneTy : Ty := .atom 1

/-- `ac::dummy_container` (`container/dummy_container.hpp:20`). -/
def dummy : Ty := .atom 2

/-- `template_type<T>::type` (`meta/template_type.hpp:13-26`, `std/array.hpp:20-23`). -/
def templateType : Ty → Ty
  | .arr t _ => t
  | .stdArray t _ => t
  | .spec _ (t :: _) => t
  | t => t

mutual

/-- `rebind_t<T, Target>` (`meta/rebind.hpp:44-57` for `rebind0`, `:61-64`, `:68-71`, `:73-76`, `:78-79`,
`std/array.hpp:25-28`, `numeric/hash.hpp:97-100`); `std::less<>` is `std::less<void>`. -/
def rebind : Ty → Ty → Ty
  | .arr _ n, u => .arr u n
  | .stdArray _ n, u => .stdArray u n
  | .spec c ts, u =>
    match c, ts with
    | .less, [_] => .spec .less [void]
    | .equalTo, [_] => .spec .equalTo [void]
    | .hashFunction, [_] => .spec .hashFunction [void]
    | c, t :: ts => .spec c (u :: rebindArgs t u ts)
    | c, [] => .spec c []
  | t, _ => t

/-- `rebind1<Ts, Target, Source>::type...` (`meta/rebind.hpp:24-42`): `Source` itself becomes `Target`; a type the
first parameter of which is `Source` is rebound; others stay. -/
def rebindArgs (s u : Ty) : List Ty → List Ty
  | [] => []
  | t :: ts =>
    (if t = s then u else if templateType t = s then rebind t u else t) :: rebindArgs s u ts

end

/-- `rebind_container_t<C, Target>` (`container/traits.hpp:16-20`). -/
def rebindContainer (c u : Ty) : Ty :=
  if c = noneTy ∨ u = noneTy then dummy else rebind c u

end Actl.Rebind
