import Verif.Spec.Stream

/-!
Model of `io/device/memory.hpp` and `io/device/string.hpp` (for one-byte characters).

Pointers are offsets from the start of the span.  A pointer that has left the span and is not
used is tolerated; `none` is an access outside of the span (undefined behaviour).
`size_t` has 64 bits.
-/

namespace Actl.Device

open Actl.Text

/-- `static_cast<size_t>(end() - m_ptr)`. -/
def remaining (len : Nat) (pos : Int) : Nat := (((len : Int) - pos) % 2 ^ 64).toNat

/-- Access to `[pos, pos + count)` is inside of the span (or empty). -/
def inside (len : Nat) (pos : Int) (count : Nat) : Bool :=
  count = 0 || (0 ≤ pos && pos + count ≤ len)

/-- The memory device: the bytes of the span and `m_ptr`, `memory.hpp:41-42`. -/
structure Mem where
  data : List Byte
  pos : Int
deriving DecidableEq, Repr

namespace Mem

/-- `peek`, `memory.hpp:97-99`. -/
def peek (m : Mem) : Option Byte :=
  if m.pos < m.data.length then
    if 0 ≤ m.pos then m.data[m.pos.toNat]? else none
  else some 0#8

/-- `get`, `memory.hpp:101-105`. -/
def get (m : Mem) : Option (Byte × Mem) :=
  match m.peek with
  | none => none
  | some c => some (c, { m with pos := m.pos + 1 })

/-- `read`, `memory.hpp:107-113`, into a span of `k` characters: the characters stored. -/
def read (m : Mem) (k : Nat) : Option (List Byte × Mem) :=
  let count := min k (remaining m.data.length m.pos)
  if inside m.data.length m.pos count then
    some ((m.data.drop m.pos.toNat).take count, { m with pos := m.pos + count })
  else none

/-- `write(Char)`, `memory.hpp:59-64`: the count returned. -/
def write1 (m : Mem) (c : Byte) : Option (Nat × Mem) :=
  if m.pos ≥ m.data.length then some (0, m)
  else if 0 ≤ m.pos then some (1, ⟨m.data.set m.pos.toNat c, m.pos + 1⟩)
  else none

/-- `write(cspan)`, `memory.hpp:66-72`. -/
def write (m : Mem) (s : List Byte) : Option (Nat × Mem) :=
  let count := min s.length (remaining m.data.length m.pos)
  if inside m.data.length m.pos count then
    some (count, ⟨m.data.take m.pos.toNat ++ s.take count ++ m.data.drop (m.pos.toNat + count),
      m.pos + count⟩)
  else none

/-- `move`, `memory.hpp:27-30` (the assertion is a no-op in release builds). -/
def move (m : Mem) (offset : Int) : Mem := { m with pos := m.pos + offset }

/-- `eof`, `memory.hpp:32-34`. -/
def eof (m : Mem) : Bool := decide ((m.data.length : Int) < m.pos)

/-- One call. -/
def step (m : Mem) : Stream.Op → Option (Stream.Out × Mem)
  | .peek => match m.peek with | none => none | some c => some (.char c, m)
  | .get => match m.get with | none => none | some (c, m) => some (.char c, m)
  | .read k => match m.read k with | none => none | some (s, m) => some (.chars s, m)
  | .move off => some (.unit, m.move off)
  | .eof => some (.bool m.eof, m)

def run : Mem → List Stream.Op → Option (List Stream.Out)
  | _, [] => some []
  | m, op :: ops =>
    match m.step op with
    | none => none
    | some (o, m) => match run m ops with | none => none | some os => some (o :: os)

/-- One reading or writing call on an input/output device. -/
def ioStep (m : Mem) : Stream.IOOp → Option (Stream.Out × Mem)
  | .rd op => m.step op
  | .put c => match m.write1 c with | none => none | some (n, m) => some (.count n, m)
  | .write s => match m.write s with | none => none | some (n, m) => some (.count n, m)

/-- The outputs and the final contents of the span. -/
def ioRun : Mem → List Stream.IOOp → Option (List Stream.Out × List Byte)
  | m, [] => some ([], m.data)
  | m, op :: ops =>
    match m.ioStep op with
    | none => none
    | some (o, m) => match ioRun m ops with | none => none | some (os, d) => some (o :: os, d)

/-- `read` on a device of characters of several bytes, as the bytes of the destination array
afterwards: `std::memcpy(chars.data(), m_ptr, count)` copies `count` *bytes*
(`memory.hpp:110`, likewise `string.hpp:86`).  `src` and `dst` are the bytes of the `count`
characters. -/
def readWide (count : Nat) (src dst : List Byte) : List Byte := src.take count ++ dst.drop count

/-- Writes only: total count returned and the device. -/
def writes : Mem → List (List Byte) → Option (Nat × Mem)
  | m, [] => some (0, m)
  | m, s :: ss =>
    match m.write s with
    | none => none
    | some (n, m) => match writes m ss with | none => none | some (k, m) => some (n + k, m)

end Mem

/-- The string device: the string and `m_pos` (`size_t`), `string.hpp:24,50,64`. -/
structure Str where
  s : List Byte
  pos : Nat
deriving DecidableEq, Repr

namespace Str

/-- Constructor, `string.hpp:32-35` and `:21`. -/
def init (trunc : Bool) (s : List Byte) : Str := ⟨if trunc then [] else s, 0⟩

/-- `peek`, `string.hpp:73-75`. -/
def peek (d : Str) : Byte := if d.pos < d.s.length then d.s.getD d.pos 0#8 else 0#8

/-- `get`, `string.hpp:77-81`. -/
def get (d : Str) : Byte × Str := (d.peek, { d with pos := (d.pos + 1) % 2 ^ 64 })

/-- `read`, `string.hpp:83-89`; `m_s.size() - m_pos` wraps. -/
def read (d : Str) (k : Nat) : Option (List Byte × Str) :=
  let count := min k (remaining d.s.length d.pos)
  if inside d.s.length d.pos count then
    some ((d.s.drop d.pos).take count, { d with pos := d.pos + count })
  else none

/-- `write(Char)`, `string.hpp:37-40`. -/
def write1 (d : Str) (c : Byte) : Nat × Str := (1, { d with s := d.s ++ [c] })

/-- `write(cspan)`, `string.hpp:42-45`. -/
def write (d : Str) (x : List Byte) : Nat × Str := (x.length, { d with s := d.s ++ x })

/-- `move`, `string.hpp:91-94`. -/
def move (d : Str) (offset : Int) : Str := { d with pos := (((d.pos : Int) + offset) % 2 ^ 64).toNat }

/-- `eof`, `string.hpp:96-98`. -/
def eof (d : Str) : Bool := decide (d.s.length < d.pos)

/-- One reading call. -/
def step (d : Str) : Stream.Op → Option (Stream.Out × Str)
  | .peek => some (.char d.peek, d)
  | .get => some (.char d.get.1, d.get.2)
  | .read k => match d.read k with | none => none | some (s, m) => some (.chars s, m)
  | .move off => some (.unit, d.move off)
  | .eof => some (.bool d.eof, d)

def run : Str → List Stream.Op → Option (List Stream.Out)
  | _, [] => some []
  | m, op :: ops =>
    match m.step op with
    | none => none
    | some (o, m) => match run m ops with | none => none | some os => some (o :: os)

/-- Any sequence of writes (of single characters or of spans). -/
def writes : Str → List (Byte ⊕ List Byte) → Nat × Str
  | d, [] => (0, d)
  | d, .inl c :: xs => let (n, d) := d.write1 c; let (k, d) := writes d xs; (n + k, d)
  | d, .inr x :: xs => let (n, d) := d.write x; let (k, d) := writes d xs; (n + k, d)

end Str

end Actl.Device
