import Verif.Model.Binary
import Verif.Model.TextDevice
import Verif.Model.FileDevice

/-!
# Binary values on devices

The reading and writing of `Model/Binary.lean`, call by call on a device.  In the binary format every number, one byte long or
more, is read by `read(span)` and written by `write(span)` of the device (`binary.hpp:27-32`, `byte_span.hpp:14-24`); the first
transfer that is not complete ends the operation.  Simplifications as in `Model/Binary.lean` except for the device.
-/

namespace Actl.Binary

open Actl.Text
open Actl.TextTree (Sink)

/-- `read(span)` of a device for a number of characters: the characters stored; `none` is undefined behaviour. -/
abbrev Source (δ : Type) := Nat → δ → Option (List Byte × δ)

/-- `io::buffered`, `wrapper/buffered.hpp:59-84`. -/
def bufferedSource (B : Nat) : Source Buffered.Reader := fun k r => r.read B k

/-- `io::memory`, `memory.hpp:107-113`. -/
def memorySource : Source Device.Mem := fun k m => m.read k

/-- `io::string`, `string.hpp:83-89`. -/
def stringSource : Source Device.Str := fun k d => d.read k

/-- `io::file`, `file.hpp:78-82`. -/
def fileSource : Source FileDevice.Stream := FileDevice.read

/-- `io::file`, `file.hpp:107-111`; streams take all characters. -/
def fileSink : Sink FileDevice.Stream := fun f s => (FileDevice.write s f).map fun g => (true, g)

variable {δ : Type}

/-! ### Writing -/

/-- `write(od, fmt, args...)` for the elements of a range, `io.hpp:35-38`, `range.hpp:45-47`. -/
def writeAllDev {α : Type} (w : α → δ → Option (Bool × δ)) : List α → δ → Option (Bool × δ)
  | [], d => some (true, d)
  | x :: xs, d => (w x d).bind fun p => if p.1 then writeAllDev w xs p.2 else some p

/-- `write` to a device: `byte_span.hpp:14-18`, `tuple.hpp:31-35`, `range.hpp:39-49`. -/
def writeDev (wr : Sink δ) : (t : Ty) → Val t → δ → Option (Bool × δ)
  | .unit, _, d => some (true, d)
  | .arith n, x, d => wr d (toBytes n (BitVec.toNat (w := 8 * n) x))
  | .pair a b, x, d => (writeDev wr a x.1 d).bind fun p => if p.1 then writeDev wr b x.2 p.2 else some p
  | .array _ t, x, d => writeAllDev (writeDev wr t) x d
  | .vec t, x, d =>
    (wr d (toBytes 8 (List.length x))).bind fun p => if p.1 then writeAllDev (writeDev wr t) x p.2 else some p
  | .seq t, x, d =>
    (wr d (toBytes 8 (List.length x))).bind fun p => if p.1 then writeAllDev (writeDev wr t) x p.2 else some p

/-! ### Reading -/

/-- `read_final(span)`, `byte_span.hpp:20-24`. -/
def readBytesDev (src : Source δ) (old : List Byte) (d : δ) : Option (Bool × List Byte × δ) :=
  (src old.length d).map fun p => (p.1.length == old.length, p.1 ++ old.drop p.1.length, p.2)

/-- `read_range`, `range.hpp:51-57`. -/
def readRangeDev {α : Type} (rd : α → δ → Option (Bool × α × δ)) : List α → δ → Option (Bool × List α × δ)
  | [], d => some (true, [], d)
  | x :: xs, d =>
    (rd x d).bind fun p =>
      if p.1 then (readRangeDev rd xs p.2.2).map fun q => (q.1, p.2.1 :: q.2.1, q.2.2)
      else some (false, p.2.1 :: xs, p.2.2)

/-- The loop of `read_container` for containers without random access, `range.hpp:64-71`. -/
def readEmplaceDev {α : Type} (rd : α → δ → Option (Bool × α × δ)) (fresh : α) :
    Nat → List α → δ → Option (Bool × List α × δ)
  | 0, xs, d => some (true, xs, d)
  | n + 1, xs, d =>
    (rd fresh d).bind fun p =>
      if p.1 then readEmplaceDev rd fresh n (xs ++ [p.2.1]) p.2.2 else some (false, xs, p.2.2)

/-- `read` from a device into an existing object (`byte_span.hpp:20-24`, `tuple.hpp:37-41`, `range.hpp:51-86`). -/
def readDev (src : Source δ) : (t : Ty) → Val t → δ → Option (Bool × Val t × δ)
  | .unit, x, d => some (true, x, d)
  | .arith n, x, d =>
    (readBytesDev src (toBytes n (BitVec.toNat (w := 8 * n) x)) d).map fun p =>
      (p.1, BitVec.ofNat (8 * n) (ofBytes p.2.1), p.2.2)
  | .pair a b, x, d =>
    (readDev src a x.1 d).bind fun p =>
      if p.1 then (readDev src b x.2 p.2.2).map fun q => (q.1, (p.2.1, q.2.1), q.2.2)
      else some (false, (p.2.1, x.2), p.2.2)
  | .array _ t, x, d => readRangeDev (readDev src t) x d
  | .vec t, x, d =>
    (readBytesDev src (toBytes 8 0) d).bind fun p =>
      if p.1 then readRangeDev (readDev src t) (resize (default t) (ofBytes p.2.1) x) p.2.2
      else some (false, x, p.2.2)
  | .seq t, x, d =>
    (readBytesDev src (toBytes 8 0) d).bind fun p =>
      if p.1 then readEmplaceDev (readDev src t) (default t) (ofBytes p.2.1) x p.2.2
      else some (false, x, p.2.2)

end Actl.Binary
