import Verif.Model.Text

/-!
Model of `io/format/text/decorator/adjusted.hpp` and of the two writers of
`io/utility/repeat.hpp`.
-/

namespace Actl.Adjusted

open Actl.Text

/-- `adjust_to`, `adjusted.hpp:15-20`, as its `uint8_t` value. -/
inductive AdjustTo | left | right | center | centerRight
deriving DecidableEq, Repr

def AdjustTo.value : AdjustTo → Nat
  | .left => 0 | .right => 1 | .center => 2 | .centerRight => 3

/-- `adjustment`, `adjusted.hpp:36-49`. -/
def adjustment (width : Nat) (a : AdjustTo) (size : Nat) : Nat × Nat :=
  if width ≤ size then (0, 0)
  else
    let size := width - size
    let p := if a.value &&& AdjustTo.center.value ≠ 0 then (size / 2, size - size / 2) else (0, size)
    if a.value &&& AdjustTo.right.value ≠ 0 then (p.2, p.1) else p

/-- Generic `write_final(repeat)`, `repeat.hpp:23-28`: the characters written. -/
def writeRepeat (c : Byte) : Nat → List Byte
  | 0 => []
  | n + 1 => c :: writeRepeat c n

/-- `encode(adjusted, x)`, `adjusted.hpp:51-62`, written to a device that takes all characters:
the batch `repeat, x, repeat`. -/
def writeAdjusted (width : Nat) (a : AdjustTo) (fill : Byte) (x : List Byte) : List Byte :=
  let (l, r) := adjustment width a x.length
  writeRepeat fill l ++ x ++ writeRepeat fill r

/-- `write_final(repeat)` for a device with an output buffer, `repeat.hpp:30-50`, for the memory
device (`io/device/memory.hpp`): `data` are the bytes of the span, `pos` the cursor.
`none`: division by zero (`x.count / s.size()`).  After `move(s.size())` the second
`output_buffer()` of a memory device is what remains behind the cursor. -/
def repeatMemory (data : List Byte) (pos : Nat) (c : Byte) (count : Nat) : Option (List Byte × Nat) :=
  let s := data.length - pos
  let fill (data : List Byte) (pos n : Nat) := data.take pos ++ List.replicate n c ++ data.drop (pos + n)
  if count ≤ s then some (fill data pos count, pos + count)
  else
    let data := fill data pos s
    let pos := pos + s
    let count := count - s
    let s := data.length - pos
    let data := fill data pos (min count s)
    if s = 0 then none
    else some (data, pos + (count / s) * s + count % s)

end Actl.Adjusted
