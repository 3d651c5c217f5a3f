import Mathlib.Data.List.Basic

/-!
# Conversions between sequences

Model of `container/conversion/*.hpp` with `range/operation/copy.hpp`: `can_convert_to_v` and
`convert_to`.

Simplifications: the types are numbers, `constant`s, `std::tuple`, `std::array` and `std::vector` of
these; every number fits every arithmetic type; the arguments are lvalues, so the specialization for
two `constant`s (`to_constant.hpp` 27-34, which names the type and not a reference) is not chosen.
`none` is a failed assertion or a program that does not compile.

The partial specializations are in order of preference: those for exactly one argument are more
specialized than those for a pack, and their constraints exclude each other.
-/

namespace Actl.Convert

/-- Types. -/
inductive Ty
  /-- an arithmetic type -/
  | num
  /-- `constant<c>` -/
  | const (c : Int)
  /-- `std::tuple<l...>` -/
  | tuple (l : List Ty)
  /-- `std::array<t, n>` -/
  | arr (t : Ty) (n : Nat)
  /-- `std::vector<t>` -/
  | vec (t : Ty)

/-- Values. -/
inductive Val
  | num (n : Int)
  | seq (l : List Val)

mutual

/-- `std::is_same_v`. -/
def same : Ty → Ty → Bool
  | .num, .num => true
  | .const a, .const b => a == b
  | .tuple a, .tuple b => sameAll a b
  | .arr t n, .arr s m => same t s && n == m
  | .vec t, .vec s => same t s
  | _, _ => false

/-- Several types. -/
def sameAll : List Ty → List Ty → Bool
  | [], [] => true
  | t :: ts, s :: ss => same t s && sameAll ts ss
  | _, _ => false

end

/-- `Tuple<T>`. -/
def isTuple : Ty → Bool
  | .tuple _ | .arr _ _ => true
  | _ => false

/-- `StrictRange<T>`, `range/traits/strict_range.hpp` 33-36: the type of the elements. -/
def strictRange : Ty → Option Ty
  | .arr t _ | .vec t => some t
  | _ => none

/-- `static_size_v<T>`, `meta/static_size.hpp`; `none` for `dynamic_size`. -/
def staticSize : Ty → Option Nat
  | .tuple l => some l.length
  | .arr _ n => some n
  | _ => none

/-- `static_sizes_match`, `meta/static_size.hpp` 48-51. -/
def sizesMatch : Option Nat → Option Nat → Bool
  | some a, some b => a == b
  | _, _ => true

/-- The element types of a tuple-like type. -/
def elements : Ty → List Ty
  | .tuple l => l
  | .arr t n => List.replicate n t
  | _ => []

mutual

/-- `T{}`. -/
def dflt : Ty → Val
  | .num => .num 0
  | .const c => .num c
  | .tuple l => .seq (dfltAll l)
  | .arr t n => .seq (List.replicate n (dflt t))
  | .vec _ => .seq []

/-- The default values of several types. -/
def dfltAll : List Ty → List Val
  | [] => []
  | t :: ts => dflt t :: dfltAll ts

end

/-- `f` of all elements, if it is defined for all. -/
def mapAll {α β : Type} (f : α → Option β) : List α → Option (List β)
  | [] => some []
  | x :: xs => (f x).bind fun y => (mapAll f xs).map (y :: ·)

mutual

/-- `T(x)`, as the constructor of `std::vector` from iterators makes its elements: numbers from
numbers, tuples from tuples element by element, and a vector from a number is that many default
elements; otherwise only a copy. -/
def construct : Ty → Ty → Val → Option Val
  | .num, .num, v => some v
  | .num, .const _, v => some v
  | .vec t, .num, .num n => if 0 ≤ n then some (.seq (List.replicate n.toNat (dflt t))) else none
  | .vec t, .const _, .num n => if 0 ≤ n then some (.seq (List.replicate n.toNat (dflt t))) else none
  | .tuple ts, .tuple ss, .seq l => (constructAll ts ss l).map .seq
  | t, s, v => if same t s then some v else none

/-- Several values. -/
def constructAll : List Ty → List Ty → List Val → Option (List Val)
  | [], [], [] => some []
  | t :: ts, s :: ss, v :: vs =>
    (construct t s v).bind fun x => (constructAll ts ss vs).map (x :: ·)
  | _, _, _ => none

end

mutual

/-- `std::is_assignable_v<T&, S const&>`. -/
def assignable : Ty → Ty → Bool
  | .num, .num => true
  | .num, .const _ => true
  | .tuple ts, .tuple ss => assignableAll ts ss
  | t, s => same t s

/-- Several types. -/
def assignableAll : List Ty → List Ty → Bool
  | [], [] => true
  | t :: ts, s :: ss => assignable t s && assignableAll ts ss
  | _, _ => false

end

/-- `can_convert_as_ranges`, `between_ranges.hpp` 16-63.  A vector can always be constructed from two
iterators (the constructor is not constrained by their elements), an array never. -/
def canAsRanges (t s : Ty) : Bool :=
  match strictRange t, strictRange s with
  | some te, some se =>
    sizesMatch (staticSize t) (staticSize s) &&
      (match t with
       | .vec _ => true
       | _ => assignable te se)
  | _, _ => false

/-- `range_to_tuple_test`, `from_range_to_tuple.hpp` 24-28 and 44-49. -/
def canRangeToTuple (can : Ty → List Ty → Bool) (t s : Ty) : Bool :=
  isTuple t &&
    (match strictRange s with
     | some se =>
       sizesMatch (staticSize s) (some (elements t).length) && (elements t).all fun te => can te [se]
     | none => false)

/-- `can_initialize_range`, `to_range.hpp` 31-43, and `can_initialize_tuple`,
`to_tuple.hpp` 36-48. -/
def canInit (can : Ty → List Ty → Bool) (t : Ty) (args : List Ty) : Bool :=
  match t with
  | .vec te => args.all fun s => can te [s]
  | .arr te n => n == args.length && args.all fun s => can te [s]
  | .tuple ts =>
    !(args.length == 1 && args.all isTuple) && ts.length == args.length &&
      (ts.zip args).all fun p => can p.1 [p.2]
  | _ => false

/-- `can_convert_to_v`, `convert_to.hpp` 15-36 with all the specializations.  `fuel` bounds the depth
of the recursion. -/
def can : Nat → Ty → List Ty → Bool
  | 0, _, _ => false
  -- `convert_to.hpp` 18-24
  | _ + 1, _, [] => true
  | fuel + 1, t, [s] =>
    match t with
    -- `convert_to.hpp` 26-33
    | .num => match s with | .num | .const _ => true | _ => false
    -- `to_constant.hpp` 15-25
    | .const _ => match s with | .num | .const _ => true | _ => false
    | t =>
      if canAsRanges t s then true
      else if canRangeToTuple (can fuel) t s then true
      else match s with
        -- `from_tuple.hpp` 24-46
        | .tuple ss => can fuel t ss
        | s => canInit (can fuel) t [s]
  | fuel + 1, t, args => canInit (can fuel) t args

/-- `range_initialization::convert`, `to_range.hpp` 21-25, `to_tuple_impl::convert`,
`to_tuple.hpp` 25-30. -/
def init (conv : Ty → List (Ty × Val) → Option Val) (t : Ty) (args : List (Ty × Val)) : Option Val :=
  match t with
  | .vec te => (mapAll (fun a => conv te [a]) args).map .seq
  | .arr te n => if n = args.length then (mapAll (fun a => conv te [a]) args).map .seq else none
  | .tuple ts =>
    if ts.length = args.length ∧ ¬ (args.length = 1 ∧ args.all fun a => isTuple a.1) then
      (mapAll (fun p => conv p.1 [p.2]) (ts.zip args)).map .seq
    else none
  | _ => none

/-- `ranges_conversion::convert`, `between_ranges.hpp` 23-26 (construction from iterators) and
37-45 (`ranges::copy` into a new array, which asserts that the sizes are equal,
`range/operation/copy.hpp` 28-36). -/
def convAsRanges (t s : Ty) (v : Val) : Option Val :=
  match t, strictRange s, v with
  | .vec te, some se, .seq l => (mapAll (construct te se) l).map .seq
  | .arr te n, some se, .seq l =>
    -- assignment gives the same value as construction where `assignable` holds
    if n = l.length then (mapAll (construct te se) l).map .seq else none
  | _, _, _ => none

/-- `convert_to` for arguments with the given types. -/
def conv : Nat → Ty → List (Ty × Val) → Option Val
  | 0, _, _ => none
  | _ + 1, t, [] => some (dflt t)
  | fuel + 1, t, [(s, v)] =>
    match t with
    | .num => match s with | .num | .const _ => some v | _ => none
    -- `to_constant.hpp` 20-24: the assertion
    | .const c => match s, v with
      | .num, .num n => if n = c then some v else none
      | .const _, .num n => if n = c then some v else none
      | _, _ => none
    | t =>
      if canAsRanges t s then convAsRanges t s v
      else if canRangeToTuple (can fuel) t s then
        -- `from_range_to_tuple.hpp` 30-37, with the assertion
        match strictRange s, v with
        | some se, .seq l =>
          if (elements t).length = l.length then
            (mapAll (fun p => conv fuel p.1 [(se, p.2)]) ((elements t).zip l)).map .seq
          else none
        | _, _ => none
      else match s, v with
        | .tuple ss, .seq l => conv fuel t (ss.zip l)
        | .tuple _, .num _ => none
        | s, v => init (conv fuel) t [(s, v)]
  | fuel + 1, t, args => init (conv fuel) t args

mutual

/-- The number of constructors of a type. -/
def Ty.size : Ty → Nat
  | .num | .const _ => 1
  | .tuple l => 1 + Ty.sizeAll l
  | .arr t _ => 1 + t.size
  | .vec t => 1 + t.size

/-- The sum of the sizes, plus one for each. -/
def Ty.sizeAll : List Ty → Nat
  | [] => 0
  | t :: ts => 1 + t.size + Ty.sizeAll ts

end

/-- `convert_to<T>(args...)`, `convert_to.hpp` 38-41, where it compiles. -/
def convertTo (t : Ty) (args : List (Ty × Val)) : Option Val :=
  let fuel := t.size + Ty.sizeAll (args.map Prod.fst) + 1
  if can fuel t (args.map Prod.fst) then conv fuel t args else none

end Actl.Convert
