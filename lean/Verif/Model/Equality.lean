/-!
# Equality of sequences

Model of `container/equality/{arrays,ranges,tuples,range_tuple}.hpp`, of `operator==` of
`container/array/semi_static_array.hpp`, and of the choice in
`container/array/semi_static_array_selector.hpp`.

Simplifications.
* Elements are integers of the built-in types (with `int` of 32 bits); they are compared after the usual
  arithmetic conversions, [expr.arith.conv].
* Sizes are compared as numbers.
* `none` stands for a program that does not compile and for reading past the end.
-/

namespace Actl.Equality

/-- An integer type: its number of bits and whether it is signed. -/
structure IntTy where
  bits : Nat
  signed : Bool
deriving DecidableEq, Repr

/-- An element of a sequence: its type and its value. -/
structure Elem where
  ty : IntTy
  val : Int
deriving DecidableEq, Repr

/-- Integral promotion, [conv.prom]. -/
def promote (t : IntTy) : IntTy := if t.bits < 32 then ⟨32, true⟩ else t

/-- The usual arithmetic conversions of promoted types, [expr.arith.conv]. -/
def common (a b : IntTy) : IntTy :=
  if a.signed = b.signed then ⟨max a.bits b.bits, a.signed⟩
  else
    let u := if a.signed then b else a
    let s := if a.signed then a else b
    if s.bits ≤ u.bits then u else s

/-- Conversion to a type, [conv.integral]; conversions to signed types are only used for values that the
type has. -/
def convert (t : IntTy) (x : Int) : Int := if t.signed then x else x % 2 ^ t.bits

/-- `a == b`; `a != b` is its negation. -/
def eqOp (a b : Elem) : Bool :=
  let t := common (promote a.ty) (promote b.ty)
  convert t a.val == convert t b.val

/-- The sequences by what `is_equal_sequence` asks about them.  `tuple`: has `std::tuple_size`, so a static
size (`meta/tuple.hpp:18-20`, `meta/static_size.hpp:28-31`).  `dynamic`: a range without static size
(`range/traits/is_dynamic_range.hpp:14-16`), with random access or not.  `array`: a built-in array, whose
static size is known (`meta/static_size.hpp:33-37`) but has no `std::tuple_size`. -/
inductive Seq
  | tuple (xs : List Elem)
  | dynamic (randomAccess : Bool) (xs : List Elem)
  | array (xs : List Elem)

/-- The loop of `is_equal_sequence` for ranges, `ranges.hpp:22-25`: from the index `i` to `n`. -/
def rangeLoop (l r : List Elem) (n : Nat) : Nat → Nat → Option Bool
  | 0, _ => none
  | fuel + 1, i =>
    if i ≠ n then
      l[i]?.bind fun a => r[i]?.bind fun b => if !eqOp a b then some false else rangeLoop l r n fuel (i + 1)
    else some true

/-- `(... && (get<Is>(l) == r[Is]))`, `range_tuple.hpp:16-22`, `tuples.hpp:16-22`: the operands behind the
first false one are not evaluated. -/
def foldEq (l r : List Elem) : List Nat → Option Bool
  | [] => some true
  | i :: is => l[i]?.bind fun a => r[i]?.bind fun b => if eqOp a b then foldEq l r is else some false

/-- `is_equal_sequence` for ranges, `ranges.hpp:13-26`. -/
def equalRanges (l r : List Elem) : Option Bool :=
  if r.length ≠ l.length then some false else rangeLoop l r l.length (l.length + 1) 0

/-- `is_equal_sequence` for a tuple and a range, `range_tuple.hpp:26-35`. -/
def equalTupleRange (l r : List Elem) : Option Bool :=
  if r.length ≠ l.length then some false else foldEq l r (List.range l.length)

/-- `is_equal_sequence` for tuples, `tuples.hpp:26-32`. -/
def equalTuples (l r : List Elem) : Option Bool :=
  if l.length ≠ r.length then some false else foldEq l r (List.range l.length)

/-- `is_equal_sequence`: the overload for the kinds of the sequences, with its `static_assert`s. -/
def isEqualSequence : Seq → Seq → Option Bool
  | .tuple l, .tuple r => equalTuples l r
  | .tuple l, .dynamic ra r => if ra then equalTupleRange l r else none
  -- `range_tuple.hpp:37-41`
  | .dynamic ra l, .tuple r => if ra then equalTupleRange r l else none
  | .dynamic ra l, .dynamic ra' r => if ra && ra' then equalRanges l r else none
  | _, _ => none

/-- `is_equal_array`, `arrays.hpp:12-18`, from the index `i` to the size of the left array. -/
def arrayLoop (l r : List Elem) : Nat → Nat → Option Bool
  | 0, _ => none
  | fuel + 1, i =>
    if i ≠ l.length then
      l[i]?.bind fun a => r[i]?.bind fun b => if !eqOp a b then some false else arrayLoop l r fuel (i + 1)
    else some true

@[inherit_doc arrayLoop] def isEqualArray (l r : List Elem) : Option Bool := arrayLoop l r (l.length + 1) 0

/-! ### Semi-static arrays -/

/-- `operator==` of two arrays of the same type, `semi_static_array.hpp:97-101`, by their dynamic values. -/
def semiEq (ty : IntTy) (l r : List Int) : Option Bool :=
  isEqualArray (l.map (⟨ty, ·⟩)) (r.map (⟨ty, ·⟩))

/-- A partial specialization of `ssa_selector<Size, SizeDynamic, T, Values...>`,
`semi_static_array_selector.hpp:15-35`: which arguments it matches. -/
inductive Spec
  /-- 15-18, the primary template: `semi_static_array`. -/
  | primary
  /-- 20-23, `<N, 0>`: `static_array`. -/
  | noDynamic
  /-- 25-28, `<N, N>`: `std::array`. -/
  | allDynamic
  /-- 32-35, `<0, 0>`: `static_array`. -/
  | empty
deriving DecidableEq, Repr

/-- Whether a specialization matches the sizes. -/
def Spec.matches (size dynamic : Nat) : Spec → Bool
  | .primary => true
  | .noDynamic => dynamic == 0
  | .allDynamic => dynamic == size
  | .empty => size == 0 && dynamic == 0

/-- Whether the first is at least as specialized as the second, [temp.spec.partial.order]: everything that
the first matches is matched by the second. -/
def Spec.atLeast : Spec → Spec → Bool
  | _, .primary => true
  | .noDynamic, .noDynamic => true
  | .allDynamic, .allDynamic => true
  | .empty, _ => true
  | _, _ => false

/-- The type chosen by `semi_static_array_t`. -/
inductive Chosen | semiStatic | static | array
deriving DecidableEq, Repr

@[inherit_doc Chosen] def Spec.type : Spec → Chosen
  | .primary => .semiStatic
  | .noDynamic => .static
  | .allDynamic => .array
  | .empty => .static

/-- `semi_static_array_t<T, Values...>`, `semi_static_array_selector.hpp:39-49`: of the matching
specializations the one that is at least as specialized as all the others; `none` if there is no such. -/
def select (dyn : Int) (values : List Int) : Option Chosen :=
  let m := [Spec.primary, .noDynamic, .allDynamic, .empty].filter
    (Spec.matches values.length (values.countP (· == dyn)))
  (m.find? fun s => m.all s.atLeast).map Spec.type

end Actl.Equality
