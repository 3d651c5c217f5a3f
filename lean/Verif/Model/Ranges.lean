import Verif.Model.Ints

/-!
Model of `range/irange.hpp`, `range/iterator/integer_iterator.hpp`,
`range/iterator/cyclic_iterator.hpp`, `range/filtered_range.hpp`,
`range/operation/{lexicographical_compare_range,is_equal_range}.hpp`,
`sequence/tuple/{lexicographical_compare_tuple,is_equal_tuple}.hpp`.
`none` is undefined behaviour (or a loop that does not end within the fuel).
-/

namespace Actl.Ranges

open Actl.Ints

/-! ### Integer ranges

A range is its begin and end value.  `T` is `Int`; the step is of any type that does not change the
type of the arithmetic (otherwise the code does not compile because of narrowing), so that adding or
multiplying it is the same as adding or multiplying its value. -/

/-- `++it`: `random_access_iterator_interface.hpp:32-34` with `integer_iterator.hpp:53-58`. -/
def next (T : IntT) (step v : Int) : Option Int :=
  match T.promote.arith (v + step) with
  | none => none
  | some x => some (T.cast x)

/-- `for (x : range)`, the values seen. -/
def walk (T : IntT) (step : Int) : Nat → Int → Int → Option (List Int)
  | 0, _, _ => none
  | fuel + 1, v, e =>
    if v = e then some []
    else match next T step v with
      | none => none
      | some v' => match walk T step fuel v' e with | none => none | some xs => some (v :: xs)

/-- `irange(first, last)`, `irange.hpp:19-25`. -/
def irange (first last : Int) : Int × Int := if first ≥ last then (first, first) else (first, last)

/-- `drange(first, last)`, `irange.hpp:34-40`, for types of at least 32 bits. -/
def drange (T : IntT) (first last : Int) : Option (Int × Int) :=
  if first < last then some (first, first)
  else match T.arith (last - 1) with | none => none | some e => some (first, e)

/-- `irange(first, last, step)`, `irange.hpp:50-60`, for types of at least 32 bits. -/
def irangeStep (T : IntT) (first last step : Int) : Option (Int × Int) :=
  if (if step > 0 then first ≥ last else first < last) then some (first, first)
  else match T.arith (last - first) with
    | none => none
    | some d => match T.arith (d - (if step > 0 then 1 else 0)) with
      | none => none
      | some d => match T.arith (d.tdiv (T.cast step)) with
        | none => none
        | some q => match T.arith (q + 1) with
          | none => none
          | some count => match T.arith (step * count) with
            | none => none
            | some p => match T.arith (first + p) with
              | none => none
              | some e => some (first, e)

/-- `size()`, `random_access_range_interface.hpp:26-28` with `integer_iterator.hpp:61-70`; the
assertions are not checked. -/
def size (T : IntT) (step : Int) (r : Int × Int) : Option Int :=
  match T.promote.arith (r.2 - r.1) with
  | none => none
  | some d => match T.promote.arith (d.tdiv (T.promote.cast step)) with
    | none => none
    | some q => some ((⟨false, T.promote.width⟩ : IntT).cast q)

/-! ### Cyclic iterators

`n` is the size of the range, an iterator is its position. -/

/-- Moving an iterator of the range. -/
def shift (n pos k : Int) : Option Int := if 0 ≤ pos + k ∧ pos + k ≤ n then some (pos + k) else none

inductive Move
  | inc
  | dec
  | add (k : Int)
  | sub (k : Int)
deriving DecidableEq, Repr

/-- The constructor, `cyclic_iterator.hpp:26-32`. -/
def cyclicInit (n pos : Int) : Int := if pos = n then 0 else pos

/-- `operator+=`, `cyclic_iterator.hpp:48-58`. -/
def cyclicAdd (n pos k : Int) : Option Int :=
  if k > 0 then shift n pos (k - (if k ≥ n - pos then n else 0))
  else shift n pos (k + (if -k > pos - 0 then n else 0))

/-- `++`, `--`, `+=`, `cyclic_iterator.hpp:34-58`, and `-=`,
`random_access_iterator_interface.hpp:57-61`. -/
def cyclicMove (n pos : Int) : Move → Option Int
  | .inc => match shift n pos 1 with
    | none => none
    | some p => some (if p = n then 0 else p)
  | .dec => shift n (if pos = 0 then n else pos) (-1)
  | .add k => cyclicAdd n pos k
  | .sub k => cyclicAdd n pos (-k)

def cyclicMoves (n : Int) : Int → List Move → Option Int
  | pos, [] => some pos
  | pos, m :: ms => match cyclicMove n pos m with | none => none | some p => cyclicMoves n p ms

/-- `operator-`, `cyclic_iterator.hpp:60-68`. -/
def cyclicDiff (n l r : Int) : Int := if l - r ≥ 0 then l - r else l - r + n

/-! ### Filtered ranges

An iterator is a position: the elements before it, nearest first, and the ones from it on. -/

section Filtered

variable {α : Type}

/-- `find_next`, `filtered_range.hpp:63-67`. -/
def findNext (p : α → Bool) : List α → List α → List α × List α
  | before, [] => (before, [])
  | before, x :: xs => if !p x then findNext p (x :: before) xs else (before, x :: xs)

/-- `begin()`, `filtered_range.hpp:77-79`. -/
def fbegin (p : α → Bool) (xs : List α) : List α × List α := findNext p [] xs

/-- `end()`, `filtered_range.hpp:81-83`. -/
def fend (p : α → Bool) (xs : List α) : List α × List α := findNext p xs.reverse []

/-- `++`, `filtered_range.hpp:49-53`. -/
def finc (p : α → Bool) : List α × List α → Option (List α × List α)
  | (_, []) => none
  | (before, x :: xs) => some (findNext p (x :: before) xs)

/-- `--`, `filtered_range.hpp:55-60`. -/
def fdec (p : α → Bool) : List α → List α → Option (List α × List α)
  | [], _ => none
  | x :: before, xs => if !p x then fdec p before (x :: xs) else some (before, x :: xs)

/-- The elements from an iterator to the end of the range. -/
def fwalk (p : α → Bool) : Nat → List α × List α → List α × List α → Option (List α)
  | 0, _, _ => none
  | fuel + 1, it, e =>
    if it.2.length = e.2.length then some []      -- the same position
    else match it.2 with
      | [] => none
      | x :: _ => match finc p it with
        | none => none
        | some it => match fwalk p fuel it e with | none => none | some ys => some (x :: ys)

/-- The elements met going back from an iterator to the begin. -/
def fwalkBack (p : α → Bool) : Nat → List α × List α → List α × List α → Option (List α)
  | 0, _, _ => none
  | fuel + 1, it, b =>
    if it.2.length = b.2.length then some []
    else match fdec p it.1 it.2 with
      | none => none
      | some it => match it.2 with
        | [] => none
        | x :: _ => match fwalkBack p fuel it b with | none => none | some ys => some (x :: ys)

end Filtered

/-! ### Comparison -/

section Compare

variable {α β : Type}

/-- `LexicographicalCompareRange::evaluate`, `lexicographical_compare_range.hpp:20-34`. -/
def lexRange (op : α → β → Int) : List α → List β → Int
  | x :: xs, y :: ys => if op x y ≠ 0 then op x y else lexRange op xs ys
  | xs, ys => (if ys ≠ [] then 1 else 0) - (if xs ≠ [] then 1 else 0)

/-- `LexicographicalCompareTuple::evaluate`, `lexicographical_compare_tuple.hpp:21-29`: the list
holds, for every position, the result of comparing the elements there (of any types); not for empty
tuples. -/
def lexTuple : List Int → Int
  | [] => 0
  | [v] => v
  | v :: vs => if v = 0 then lexTuple vs else v

/-- `IsEqualRange::evaluate`, `is_equal_range.hpp:19-28`. -/
def equalRange (op : α → β → Bool) : List α → List β → Bool
  | [], [] => true
  | x :: xs, y :: ys => if !op x y then false else equalRange op xs ys
  | _, _ => false

/-- `IsEqualTuple`, `is_equal_tuple.hpp:18-28`. -/
def equalTuple : List Bool → Bool
  | [] => true
  | b :: bs => b && equalTuple bs

/-- `overload<IsLess, L, R>`: `compare3way < 0`, `lexicographical_compare_range.hpp:46-49` and
`lexicographical_compare_tuple.hpp:41-44`. -/
def lessRange (op : α → β → Int) (xs : List α) (ys : List β) : Bool := decide (lexRange op xs ys < 0)

end Compare

end Actl.Ranges
