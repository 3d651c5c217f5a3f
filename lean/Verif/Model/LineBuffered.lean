import Mathlib.Data.List.Basic

/-!
# Line buffered devices

Model of `io/device/wrapper/line_buffered.hpp`, `io/argument/byte_span.hpp` 20-24.

Simplifications: the file is the list of characters not read yet; reading never fails before its end;
`std::fgets` and `std::strlen` are modelled by what the C standard says about them; the span is no
longer than `int` can express.
-/

namespace Actl.LineBuf

/-- The characters `fgets` with room for `n` characters (one of them the terminator) takes from the
file: it stops after a line end. -/
def fgetsTake : Nat → List Char → List Char
  | 0, _ => []
  | _ + 1, [] => []
  | n + 1, c :: cs => if c = '\n' then [c] else c :: fgetsTake n cs

/-- `std::fgets(chars.data(), size, file)`: the contents of the array afterwards, up to and including
the terminator, and the file; `none` for a null pointer: nothing left, or a size of 0. -/
def fgets (size : Nat) (file : List Char) : Option (List Char × List Char) :=
  if size = 0 then none
  else if file = [] then none
  else
    let t := fgetsTake (size - 1) file
    some (t ++ ['\x00'], file.drop t.length)

/-- `std::strlen`. -/
def strlen (a : List Char) : Nat := (a.takeWhile (· ≠ '\x00')).length

/-- `line_buffered_reader::read(chars)`, `line_buffered.hpp` 25-32: the characters of the span up to
the returned count, and the file. -/
def read (size : Nat) (file : List Char) : List Char × List Char :=
  match fgets size file with
  | some (a, file) => (a.take (strlen a), file)
  | none => ([], file)

/-- `io::read(device, span)`, `byte_span.hpp` 20-24: whether it reports success. -/
def readSpan (size : Nat) (file : List Char) : Bool := (read size file).1.length == size

/-- Reading with a span of `size` characters until nothing is returned: the pieces received. -/
def readAll (size : Nat) : Nat → List Char → List (List Char)
  | 0, _ => []
  | fuel + 1, file =>
    let r := read size file
    if r.1 = [] then [] else r.1 :: readAll size fuel r.2

/-- The underlying device of a writer: what it received, and how much of it was flushed. -/
structure Sink where
  got : List Char
  flushed : Nat

/-- `Device::write`. -/
def Sink.write (s : Sink) (t : List Char) : Sink := { s with got := s.got ++ t }

/-- `Device::flush`. -/
def Sink.flush (s : Sink) : Sink := { s with flushed := s.got.length }

/-- The loop of `line_buffered::write`, `line_buffered.hpp` 45-47: `last - chars.data()`, starting
from `n`. -/
def scanBack (chars : List Char) : Nat → Nat
  | 0 => 0
  | n + 1 => if chars[n]? ≠ some '\n' then scanBack chars n else n + 1

/-- `line_buffered::write(chars)`, `line_buffered.hpp` 44-53, up to its closing brace: the device.
(The function is declared to return `size_t` and has no `return` statement, so reaching that brace is
undefined behaviour on every path; this is not part of the model.) -/
def writeEffect (s : Sink) (chars : List Char) : Sink :=
  let last := scanBack chars chars.length
  let s := if last ≠ 0 then (s.write (chars.take last)).flush else s
  s.write (chars.drop last)

end Actl.LineBuf
