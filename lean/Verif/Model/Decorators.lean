import Mathlib.Data.List.Basic

/-!
# Writing through `spaced >>= text` and `spaced >>= braced >>= text`

Model of `io/io.hpp` 35-38, `io/core/read_write.hpp` 19-71, `io/core/batch.hpp` 47-60,
`io/core/manipulator.hpp` 19-35, `io/format/composed_format.hpp` 33-41,
`io/format/text/decorator/spaced.hpp`, `io/format/text/decorator/braced.hpp`,
`io/argument/{range,tuple,size}.hpp` and `io/utility/raw.hpp`.

Simplifications: the device accepts everything, so every `write` returns true and no step is cut
short; the text of a single unit (a number, a character, a `string_view`) is given, its formatting is
the subject of other models; values are trees, where C++ has one function per static type.
-/

namespace Actl.Decor

/-- The ranges, by what decides how they are written: `Container`, `AssociativeRange` and a size
known at compile time (`range/traits/properties.hpp` 31-32, `range/traits/associative_range.hpp`). -/
inductive RangeKind
  /-- not a container: `span`, `iterator_range`, ... -/
  | view
  /-- a sequence container; `dynamic` when the size is not part of the type -/
  | sequence (dynamic : Bool)
  /-- a container with a `key_type` -/
  | associative
deriving DecidableEq, Repr

/-- What can be written. -/
inductive Val
  /-- one unit with its text -/
  | atom (t : List Char)
  /-- a `std::string`: for `text` a unit (`text.hpp` 85-89), for `braced` a sequence container -/
  | str (t : List Char)
  /-- `raw` of text (`utility/raw.hpp`) -/
  | raw (t : List Char)
  /-- `colon` (`core/manipulator.hpp` 37) -/
  | colon
  /-- `batch` (`core/batch.hpp`) -/
  | batch (l : List Val)
  /-- `std::tuple`, `std::pair`, or an `IO_Tuple` whose `write_final` writes its parts -/
  | tuple (l : List Val)
  /-- a range of elements as represented by `element_representation` (`argument/range.hpp` 31-37) -/
  | range (k : RangeKind) (l : List Val)

/-- A map: `element_representation` of a pair is `batch{key, colon, value}`,
`argument/range.hpp` 33-34. -/
def Val.map (l : List (Val × Val)) : Val :=
  .range .associative (l.map fun p => .batch [p.1, .colon, p.2])

/-- The format object: the members of `spaced`, whether `braced` follows, and how `text` writes the
size of a container. -/
structure Fmt where
  space : List Char
  colon : List Char
  braced : Bool
  number : Nat → List Char

/-- `spaced::separate` and what was output. -/
structure St where
  separate : Bool
  out : List Char

/-- Output of text. -/
def St.emit (s : St) (t : List Char) : St := { s with out := s.out ++ t }

/-- `encode(spaced, x)`, `spaced.hpp` 54-63: the separator that comes before `x`. -/
def St.unit (f : Fmt) (s : St) : St := if s.separate then s.emit f.space else { s with separate := true }

/-- `manipulate(spaced, change_level<Deeper>)`, `spaced.hpp` 77-80. -/
def St.level (s : St) (deeper : Bool) : St := { s with separate := !deeper }

/-- `write_final(size)`, `argument/size.hpp` 21-25, through the whole format: `size` is a unit, and
in a scope of its own its value is another. -/
def writeSize (f : Fmt) (n : Nat) (s : St) : St :=
  let s := s.unit f
  let s := s.level true
  let s := (s.unit f).emit (f.number n)
  s.level false

/-- The brackets of `braced` for a range, `braced.hpp` 19-29; only containers get them. -/
def bracketsOf : RangeKind → Option (Char × Char)
  | .view => none
  | .sequence _ => some ('[', ']')
  | .associative => some ('{', '}')

/-- `static_size_v<R> == dynamic_size` for a container, `argument/range.hpp` 42. -/
def RangeKind.writesSize : RangeKind → Bool
  | .view => false
  | .sequence dynamic => dynamic
  | .associative => true

mutual

/-- `write(od, fmt, x)` for one argument: `write_impl` (`core/read_write.hpp` 68-71) of the whole
format.  A `batch` is written part by part (`core/batch.hpp` 47-51); everything else is encoded by
`spaced`, then by `braced`, then handed to `write_final`, which calls `write` with the whole format
again for the parts, inside `nested_scope_guard`. -/
def write (f : Fmt) : Val → St → St
  | .atom t, s => (s.unit f).emit t
  | .str t, s =>
    if f.braced then
      -- `encode(braced, SC)`, `braced.hpp` 25-29, then a range of characters
      let s := ((s.unit f).emit ['[']).level true
      let s := t.foldl (fun s c => (s.unit f).emit [c]) s
      (s.level false).emit [']']
    else (s.unit f).emit t
  -- `encode(spaced, raw)`, `spaced.hpp` 65-69
  | .raw t, s => { s with separate := false }.emit t
  -- `encode(spaced, colon)`, `spaced.hpp` 71-75
  | .colon, s => { s with separate := false }.emit f.colon
  | .batch l, s => writeAll f l s
  -- `encode(braced, T)`, `braced.hpp` 31-35; `write_final(tuple)`, `argument/tuple.hpp` 31-35
  | .tuple l, s =>
    let s := s.unit f
    let s := if f.braced then s.emit ['('] else s
    let s := (writeAll f l (s.level true)).level false
    if f.braced then s.emit [')'] else s
  -- `encode(braced, AC)`, `encode(braced, SC)`, `braced.hpp` 19-29: `make_range` of a container is
  -- not a container, so its size is not written; `write_final(range)`, `argument/range.hpp` 39-49
  | .range k l, s =>
    let s := s.unit f
    match (if f.braced then bracketsOf k else none) with
    | some (o, c) => ((writeAll f l ((s.emit [o]).level true)).level false).emit [c]
    | none =>
      let s := s.level true
      let s := if k.writesSize then writeSize f l.length s else s
      (writeAll f l s).level false

/-- `write(od, fmt, args...)`, `io/io.hpp` 35-38. -/
def writeAll (f : Fmt) : List Val → St → St
  | [], s => s
  | x :: xs, s => writeAll f xs (write f x s)

end

end Actl.Decor
