import Verif.Model.Text

/-!
Model of binary serialization: `io/format/binary/binary.hpp`, `io/argument/{byte_span,range,tuple,
size}.hpp`, `io/io.hpp:35-53`.

The device is the list of its unread characters (memory, string, file and primed buffered devices
read like this, see `Props/Devices.lean`, `Props/Buffered.lean`), resp. the characters written.
Arithmetic types of `n` bytes are `BitVec (8 * n)`, stored in little-endian order.
-/

namespace Actl.Binary

open Actl.Text

/-- The types covered.  A tuple is nested pairs ended by `unit`: in the binary format neither
brackets nor separators are written, so the bytes are the same.  `vec` is a random access
container that can be resized (`std::vector`), `seq` a container without random access, filled by
`emplace` at the end (`std::list`); `array` has a static size. -/
inductive Ty
  | unit
  | arith (n : Nat)
  | pair (a b : Ty)
  | array (n : Nat) (t : Ty)
  | vec (t : Ty)
  | seq (t : Ty)

/-- The values of a type. -/
def Val : Ty → Type
  | .unit => Unit
  | .arith n => BitVec (8 * n)
  | .pair a b => Val a × Val b
  | .array _ t => List (Val t)
  | .vec t => List (Val t)
  | .seq t => List (Val t)

/-- A value-initialized object. -/
def default : (t : Ty) → Val t
  | .unit => ()
  | .arith n => (0 : BitVec (8 * n))
  | .pair a b => (default a, default b)
  | .array n t => List.replicate n (default t)
  | .vec _ => []
  | .seq _ => []

/-- The object representation (`encode`, `binary.hpp:27-32`). -/
def toBytes : (n : Nat) → (x : Nat) → List Byte
  | 0, _ => []
  | n + 1, x => BitVec.ofNat 8 x :: toBytes n (x / 256)

/-- The value with a given object representation. -/
def ofBytes : List Byte → Nat
  | [] => 0
  | b :: bs => b.toNat + 256 * ofBytes bs

/-- `write` of a sequence of arguments: `(... && write_impl(...))`, `io.hpp:35-38`,
`range.hpp:45-47`.  Writing to a device that does not fail. -/
def writeAll {α : Type} (w : α → List Byte) : List α → List Byte
  | [] => []
  | x :: xs => w x ++ writeAll w xs

/-- `write`, binary: arithmetic values (`byte_span.hpp:14-18`), tuples (`tuple.hpp:31-35`), ranges
(`range.hpp:39-49`; the size of a dynamic container is a `size_t` of 8 bytes). -/
def write : (t : Ty) → Val t → List Byte
  | .unit, _ => []
  | .arith n, x => toBytes n (BitVec.toNat (w := 8 * n) x)
  | .pair a b, x => write a x.1 ++ write b x.2
  | .array _ t, x => writeAll (write t) x
  | .vec t, x => toBytes 8 (List.length x) ++ writeAll (write t) x
  | .seq t, x => toBytes 8 (List.length x) ++ writeAll (write t) x

/-- `read_final(span)`, `byte_span.hpp:20-24`: success, the bytes of the object, the rest. -/
def readBytes (old : List Byte) (d : List Byte) : Bool × List Byte × List Byte :=
  let got := d.take old.length
  (got.length = old.length, got ++ old.drop got.length, d.drop old.length)

/-- `read_range`, `range.hpp:51-57`: reads into each element in turn, stopping at a failure. -/
def readRange {α : Type} (rd : α → List Byte → Bool × α × List Byte) :
    List α → List Byte → Bool × List α × List Byte
  | [], d => (true, [], d)
  | x :: xs, d =>
    match rd x d with
    | (false, x', d) => (false, x' :: xs, d)
    | (true, x', d) => match readRange rd xs d with | (ok, xs', d) => (ok, x' :: xs', d)

/-- The loop of `read_container` for containers without random access, `range.hpp:64-71`. -/
def readEmplace {α : Type} (rd : α → List Byte → Bool × α × List Byte) (fresh : α) :
    Nat → List α → List Byte → Bool × List α × List Byte
  | 0, xs, d => (true, xs, d)
  | n + 1, xs, d =>
    match rd fresh d with
    | (false, _, d) => (false, xs, d)
    | (true, x, d) => readEmplace rd fresh n (xs ++ [x]) d

/-- `x.resize(n)`. -/
def resize {α : Type} (fresh : α) (n : Nat) (xs : List α) : List α :=
  xs.take n ++ List.replicate (n - xs.length) fresh

/-- `read` into an existing object: success, the object afterwards, the unread rest
(`byte_span.hpp:20-24`, `tuple.hpp:37-41`, `range.hpp:51-86`). -/
def read : (t : Ty) → Val t → List Byte → Bool × Val t × List Byte
  | .unit, x, d => (true, x, d)
  | .arith n, x, d =>
    match readBytes (toBytes n (BitVec.toNat (w := 8 * n) x)) d with
    | (ok, bs, d) => (ok, BitVec.ofNat (8 * n) (ofBytes bs), d)
  | .pair a b, x, d =>
    match read a x.1 d with
    | (false, y, d) => (false, (y, x.2), d)
    | (true, y, d) => match read b x.2 d with | (ok, z, d) => (ok, (y, z), d)
  | .array _ t, x, d => readRange (read t) x d
  | .vec t, x, d =>
    match readBytes (toBytes 8 0) d with
    | (false, _, d) => (false, x, d)
    | (true, bs, d) => readRange (read t) (resize (default t) (ofBytes bs) x) d
  | .seq t, x, d =>
    match readBytes (toBytes 8 0) d with
    | (false, _, d) => (false, x, d)
    | (true, bs, d) => readEmplace (read t) (default t) (ofBytes bs) x d

end Actl.Binary
