import Verif.Model.Decorators

/-!
# Writing through `indented >>= text`

Model of `io/format/text/decorator/indented.hpp` with the same surroundings as
`Verif/Model/Decorators.lean`: `io/core/read_write.hpp` 19-71, `io/core/manipulator.hpp` 19-35,
`io/core/batch.hpp` 47-60, `io/argument/{range,tuple,size,empty}.hpp`, `io/utility/repeat.hpp`.

Simplifications: as there, the device accepts everything and the text of a single unit is given;
`count * level` and `level` are natural numbers where C++ has `size_t`.
-/

namespace Actl.Indent

open Actl.Decor (Val RangeKind)

/-- The members of `indented` that do not change, `indented.hpp` 18-20, and how `text` writes the
size of a container. -/
structure Fmt where
  fill : Char
  endl : Char
  count : Nat
  number : Nat → List Char

/-- `indented::level`, `indented::indent` (`indented.hpp` 21-22) and what was output. -/
structure St where
  level : Nat
  indent : Bool
  out : List Char

/-- Output of text. -/
def St.emit (s : St) (t : List Char) : St := { s with out := s.out ++ t }

/-- `encode(indented, x)` for what is not a range, `indented.hpp` 25-38: the parts of the batch that
come before `x`. -/
def St.unit (f : Fmt) (s : St) : St :=
  if !s.indent then { s with indent := true }
  else (s.emit [f.endl]).emit (List.replicate (f.count * s.level) f.fill)

/-- `manipulate(indented, change_level<true>)`, `indented.hpp` 45-50. -/
def St.deeper (s : St) : St := { s with indent := true, level := s.level + 1 }

/-- `manipulate(indented, change_level<false>)`, `indented.hpp` 45-50. -/
def St.shallower (s : St) : St := { s with level := s.level - 1 }

/-- `write_final(size)`, `argument/size.hpp` 21-25: `size` is not a range, so it is a unit, and so is
its value, in a scope of its own. -/
def writeSize (f : Fmt) (n : Nat) (s : St) : St :=
  let s := (s.unit f).deeper
  ((s.unit f).emit (f.number n)).shallower

mutual

/-- `write(od, fmt, x)` for one argument.  Ranges, and strings among them, are not encoded by
`indented` (`requires(!Range<T>)`, `indented.hpp` 26); `colon` is an empty class without an
`encode` of its own, so it is a unit without text (`argument/empty.hpp` 13-17). -/
def write (f : Fmt) : Val → St → St
  | .atom t, s => (s.unit f).emit t
  | .str t, s => s.emit t
  -- `encode(indented, raw)`, `indented.hpp` 40-43
  | .raw t, s => s.emit t
  | .colon, s => s.unit f
  | .batch l, s => writeAll f l s
  -- `argument/tuple.hpp` 31-35
  | .tuple l, s => (writeAll f l (s.unit f).deeper).shallower
  -- `argument/range.hpp` 39-49
  | .range k l, s =>
    let s := s.deeper
    let s := if k.writesSize then writeSize f l.length s else s
    (writeAll f l s).shallower

/-- `write(od, fmt, args...)`, `io/io.hpp` 35-38. -/
def writeAll (f : Fmt) : List Val → St → St
  | [], s => s
  | x :: xs, s => writeAll f xs (write f x s)

end

/-- A fresh format object, `indented.hpp` 21-22. -/
def fresh : St := ⟨0, false, []⟩

end Actl.Indent
