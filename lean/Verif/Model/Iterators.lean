import Verif.Model.Ints

/-!
Model of `range/iterator/integer_iterator.hpp` with the operators it gets from
`range/iterator/interface/random_access_iterator_interface.hpp`, of the members of ranges in
`range/interface/`, of `range/iterator/linked_list_iterator.hpp` and of
`range/iterator/limited_input_iterator.hpp`.  `none` is undefined behaviour or a failed assertion.
-/

namespace Actl.Iterators

open Actl.Ints

/-! ### Integer iterators

An iterator is its `m_value`.  `T` is the type `Int` of the value, `S` is the type of the step, `D` the
type of an offset.  A `constant<N>` converts to its `int` in all arithmetic (`constant.hpp:23-28`), so it
is an `int` here. -/

/-- The usual arithmetic conversions. -/
def common (a b : IntT) : IntT :=
  if a.promote.signed = b.promote.signed then ⟨a.promote.signed, max a.promote.width b.promote.width⟩
  else if a.promote.signed then (if a.promote.width ≤ b.promote.width then b.promote else a.promote)
  else (if b.promote.width ≤ a.promote.width then a.promote else b.promote)

/-- `m_value += offset * m_step`, `integer_iterator.hpp:53-58`; also `it + offset`,
`random_access_iterator_interface.hpp:36-49`, and, with an `int` offset of 1 or -1, `++` and `--`,
`random_access_iterator_interface.hpp:30-34,51-55`. -/
def advance (T S D : IntT) (step v offset : Int) : Option Int :=
  let P := common D S
  match P.arith (P.cast offset * P.cast step) with
  | none => none
  | some p =>
    let Q := common T P
    match Q.arith (Q.cast v + Q.cast p) with
    | none => none
    | some x => some (T.cast x)

/-- `it += -offset`, `random_access_iterator_interface.hpp:57-61`, and `it - offset`, `:63-67`. -/
def retreat (T S D : IntT) (step v offset : Int) : Option Int :=
  match D.promote.arith (-offset) with
  | none => none
  | some k => advance T S D.promote step v k

/-- `l - r` of two iterators with the same step, `integer_iterator.hpp:60-70`. -/
def difference (T S : IntT) (step l r : Int) : Option Int :=
  match T.promote.arith (l - r) with
  | none => none
  | some d =>
    let Q := common T S
    if Q.cast step = 0 then none
    else if (Q.cast d).tmod (Q.cast step) ≠ 0 then none
    else Q.arith ((Q.cast d).tdiv (Q.cast step))

/-- `l <=> r`, `random_access_iterator_interface.hpp:76-79`. -/
def compareIter (T S : IntT) (step l r : Int) : Option Ordering :=
  match difference T S step l r with
  | none => none
  | some d => some (compare d 0)

/-! ### Members of a range that return references

An iterator object is in a memory cell of its own while it exists.  There are the iterators that refer to
an element elsewhere (pointers) and the ones that return a reference to their own member
(`integer_iterator::operator*`). -/

/-- Memory: the objects that exist, by address; no object is at or above `fresh`. -/
structure Mem where
  cells : Nat → Option Int
  fresh : Nat

/-- A new object. -/
def Mem.create (m : Mem) (v : Int) : Mem × Nat :=
  (⟨fun a => if a = m.fresh then some v else m.cells a, m.fresh + 1⟩, m.fresh)

/-- The end of the lifetime of an object. -/
def Mem.destroy (m : Mem) (a : Nat) : Mem := ⟨fun b => if b = a then none else m.cells b, m.fresh⟩

inductive Kind
  | pointer
  | integer
deriving DecidableEq, Repr

/-- `*it` as an address: `it` is the object at `self` with the value `v`; for integers
`integer_iterator.hpp:43-45`. -/
def deref : Kind → Nat → Nat → Nat
  | .pointer, _, v => v
  | .integer, self, _ => self

/-- `front()` of the range from `b` to `e`, `basic_range_interface.hpp:30-34`: a temporary `begin()`, the
reference, the end of the temporary. -/
def front (kind : Kind) (m : Mem) (b e : Nat) : Option (Mem × Nat) :=
  if b = e then none
  else
    let (m, it) := m.create b
    some (m.destroy it, deref kind it b)

/-- `back()`, `bidirectional_range_interface.hpp:17-23`: a local `last`. -/
def back (kind : Kind) (m : Mem) (b e : Nat) : Option (Mem × Nat) :=
  if b = e then none
  else
    let (m, it) := m.create (e - 1 : Nat)
    some (m.destroy it, deref kind it (e - 1))

/-- `operator[]` of an iterator, `random_access_iterator_interface.hpp:24-28`: a temporary
`derived() + offset`. -/
def iterIndex (kind : Kind) (m : Mem) (it offset : Nat) : Mem × Nat :=
  let (m, t) := m.create (it + offset : Nat)
  (m.destroy t, deref kind t (it + offset))

/-- `operator[]` of a range, `random_access_range_interface.hpp:18-24`. -/
def rangeIndex (kind : Kind) (m : Mem) (b e i : Nat) : Option (Mem × Nat) :=
  if i < e - b then
    match kind with
    | .pointer => some (m, b + i)     -- the operator of the language
    | .integer => some (iterIndex .integer m b i)
  else none

/-- Reading a returned reference; `none` if there is no object any more. -/
def readRef : Option (Mem × Nat) → Option Int
  | none => none
  | some (m, a) => m.cells a

/-! ### Linked lists

A node has an address above 0 and a value, and pointers to the next and the previous node; 0 is the null
pointer, also the iterator past the end. -/

structure Node (α : Type) where
  value : α
  next : Nat
  prev : Nat

abbrev Heap (α : Type) := Nat → Option (Node α)

variable {α : Type}

/-- `*it`, `linked_list_iterator.hpp:34-37,71-74`. -/
def nodeValue (h : Heap α) (it : Nat) : Option α :=
  if it = 0 then none else match h it with | none => none | some n => some n.value

/-- `++it`, `linked_list_iterator.hpp:39-43,76-80`. -/
def nodeNext (h : Heap α) (it : Nat) : Option Nat :=
  if it = 0 then none else match h it with | none => none | some n => some n.next

/-- `--it`, `linked_list_iterator.hpp:82-86`. -/
def nodePrev (h : Heap α) (it : Nat) : Option Nat :=
  if it = 0 then none else match h it with | none => none | some n => some n.prev

/-- `for (; it != end; ++it)` with the values seen; `fuel` bounds the number of steps. -/
def walkNodes (h : Heap α) : Nat → Nat → Nat → Option (List α)
  | 0, _, _ => none
  | fuel + 1, it, e =>
    if it = e then some []
    else match nodeValue h it with
      | none => none
      | some v => match nodeNext h it with
        | none => none
        | some it => match walkNodes h fuel it e with | none => none | some vs => some (v :: vs)

/-- `k` times `--it`. -/
def backNodes (h : Heap α) : Nat → Nat → Option Nat
  | 0, it => some it
  | k + 1, it => match nodePrev h it with | none => none | some it => backNodes h k it

/-! ### Limited input

The base iterator reads from a stream like `std::istream_iterator`: constructing it and every `++` take the
next element, and it becomes the end iterator (`none`) if there is none. -/

/-- A limited iterator: the current element of the base iterator (`none`: `Iterator{}`), the rest of the
stream, and `m_limit`. -/
structure Limited (α : Type) where
  base : Option α
  rest : List α
  limit : Int

/-- The base iterator constructed from a stream, wrapped with a limit,
`limited_input_iterator.hpp:23-24`. -/
def limited (stream : List α) (limit : Int) : Limited α := ⟨stream.head?, stream.tail, limit⟩

/-- `++`, `limited_input_iterator.hpp:26-33`; incrementing the end iterator of the base is undefined. -/
def Limited.inc (it : Limited α) : Option (Limited α) :=
  if it.limit ≤ 0 then none
  else if it.limit - 1 > 0 then
    match it.base with
    | none => none
    | some _ => some ⟨it.rest.head?, it.rest.tail, it.limit - 1⟩
  else some ⟨none, it.rest, it.limit - 1⟩

/-- A loop until the base iterator is the end iterator (the comparison of `iterator_adaptor.hpp:70-77`
with the end of `make_limited_input_range`, `limited_input_range.hpp:14-19`; its requires-clause excludes
iterators of the input category, for which the loop does not compile): the elements seen and the rest of
the stream. -/
def Limited.drain : Nat → Limited α → Option (List α × List α)
  | 0, _ => none
  | fuel + 1, it => match it.base with
    | none => some ([], it.rest)
    | some v => match it.inc with
      | none => none
      | some it => match it.drain fuel with | none => none | some (vs, rest) => some (v :: vs, rest)

end Actl.Iterators
