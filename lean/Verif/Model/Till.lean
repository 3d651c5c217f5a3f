import Verif.Model.Text
import Verif.Model.Devices

/-!
Model of `io/utility/till.hpp`, `io/utility/skip.hpp`, `io/utility/predicate.hpp` and
`io/format/text/parser/string.hpp`.
-/

namespace Actl.Till

open Actl.Text

/-! ### Predicates -/

/-- `predicate<T>::operator()`, `io/utility/predicate.hpp:18-27`: a single character, a
null-terminated string (`std::strchr`, which also finds the terminating null) or a function. -/
inductive Pred
  | char (p : Byte)
  | cstr (s : List Byte)
  | fn (f : Byte → Bool)

def Pred.test : Pred → Byte → Bool
  | .char p, c => p == c
  | .cstr s, c => (s ++ [0#8]).contains c      -- strchr(pred, c) != nullptr
  | .fn f, c => f c

/-! ### Unbuffered devices -/

/-- A device without an input buffer (`io/device/file.hpp:52-87`): the characters not read yet and
the end-of-file indicator, set by `fgetc` at the end. -/
structure FileDev where
  rest : List Byte
  eof : Bool
deriving DecidableEq, Repr

/-- `get`, `file.hpp:64-67`. -/
def FileDev.get (d : FileDev) : Byte × FileDev :=
  match d.rest with
  | [] => (0#8, { d with eof := true })
  | c :: cs => (c, { d with rest := cs })

/-- `read_till` for any device, `till.hpp:25-36`, into a span of `size` characters: the characters
stored. -/
def readTillGet (t : Byte → Bool) : Nat → FileDev → List Byte × FileDev
  | 0, d => ([], d)
  | size + 1, d =>
    let (c, d) := d.get
    if d.eof || t c then ([], d)
    else let (cs, d) := readTillGet t size d; (c :: cs, d)

/-! ### Buffered devices -/

/-- `input_buffer()` of a device that delivers its data in chunks. -/
def inputBuffer : List (List Byte) → List Byte
  | [] => []
  | s :: _ => s

/-- `move(n)` within the input buffer: a chunk consumed completely gives way to the next. -/
def moveChunks (n : Nat) : List (List Byte) → List (List Byte)
  | [] => []
  | s :: rest => if n = s.length then rest else s.drop n :: rest

/-- The inner loop, `till.hpp:46-47`: characters of `s`, at most `k`, up to a terminator. -/
def scan (t : Byte → Bool) : Nat → List Byte → List Byte
  | 0, _ => []
  | _, [] => []
  | k + 1, c :: cs => if t c then [] else c :: scan t k cs

/-- `read_till` for buffered devices, `till.hpp:38-53`; `i` characters are already stored.  The
loop runs at most once more than there are chunks. -/
def readTillBuf (t : Byte → Bool) (size : Nat) : Nat → Nat → List (List Byte) →
    Option (List Byte × List (List Byte))
  | 0, _, _ => none
  | fuel + 1, i, d =>
    let s := inputBuffer d
    let got := scan t (size - i) s
    let d := moveChunks got.length d
    let i := i + got.length
    if i = size || s.isEmpty || got.length ≠ min s.length (size - (i - got.length)) then some (got, d)
    else match readTillBuf t size fuel i d with
      | none => none
      | some (more, d) => some (got ++ more, d)

/-! ### Reading into a string -/

/-- `read_till` into a string, `parser/string.hpp:16-28`.  `rd n d` is `read_till` into a span of `n`
characters; `acc` is the part of the string before `last`; `none` if the iterations do not
suffice. -/
def readString {δ : Type} (rd : Nat → δ → Option (List Byte × δ)) : Nat → List Byte → Nat → δ →
    Option (List Byte × δ)
  | 0, _, _, _ => none
  | fuel + 1, acc, length, d =>
    match rd length d with
    | none => none
    | some (cs, d) =>
      if cs.length < length then some (acc ++ cs, d)
      else readString rd fuel (acc ++ cs) (acc.length + length) d      -- length = last += length

/-- The first length, `parser/string.hpp:17`. -/
def firstLength (capacity : Nat) : Nat := max 16 capacity

/-! ### Skipping -/

/-- `skip::operator()`, `skip.hpp:19-23`, on a memory device; `none`: out of memory bounds or not
enough iterations. -/
def skip (p : Byte → Bool) : Nat → Device.Mem → Option Device.Mem
  | 0, _ => none
  | fuel + 1, m =>
    if m.eof then some m
    else match m.peek with
      | none => none
      | some c => if p c then skip p fuel (m.move 1) else some m

end Actl.Till
