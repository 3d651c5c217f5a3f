import Verif.Model.TextTree
import Verif.Model.RealRound

/-!
# Structured values with real numbers as text

The types of `Model/TextTree.lean` and floating point numbers, in tuples, arrays and containers nested to any depth (points,
polygons, matrices), written with `spaced{space} >>= text` and read with the same format or with `skipws{} >>= text`.  The
numbers themselves are those of `Model/RealWrite.lean` and `Model/RealRound.lean`.

Simplifications as in these modules.  Numbers are finite and zero has no sign; not-a-number and infinity are written as words
(C70) which are not read back as numbers.
-/

namespace Actl.RealTree

open Actl.Text
open Actl.TextTree (St RSt Reader writeLeaf writeSize writeAll readLeaf nested readRange readEmplace resize readContainer)

mutual

/-- The types: floating point numbers, types without them, and tuples, arrays and containers as in `TextTree.Ty`. -/
inductive Ty
  | real
  | plain (t : TextTree.Ty)
  | tuple (ts : Tys)
  | array (n : Nat) (t : Ty)
  | vec (t : Ty)
  | seq (t : Ty)

/-- The types of the elements of a tuple. -/
inductive Tys
  | nil
  | cons (t : Ty) (ts : Tys)

end

mutual

/-- The values of a type. -/
def Val (F : Type) : Ty → Type
  | .real => F
  | .plain t => TextTree.Val t
  | .tuple ts => Vals F ts
  | .array _ t => List (Val F t)
  | .vec t => List (Val F t)
  | .seq t => List (Val F t)

/-- The elements of a tuple. -/
def Vals (F : Type) : Tys → Type
  | .nil => Unit
  | .cons t ts => Val F t × Vals F ts

end

variable {F : Type} [Field F] [LinearOrder F] [FloorSemiring F]

mutual

/-- A value-initialized object. -/
def default : (t : Ty) → Val F t
  | .real => (0 : F)
  | .plain t => TextTree.default t
  | .tuple ts => defaults ts
  | .array n t => List.replicate n (default t)
  | .vec _ => []
  | .seq _ => []

/-- The same for the elements of a tuple. -/
def defaults : (ts : Tys) → Vals F ts
  | .nil => ()
  | .cons t ts => (default t, defaults ts)

end

/-- The settings of `TextTree.Cfg`, the precision and `showpoint` of `text`, and the rounding of the floating point type. -/
structure Cfg (F : Type) where
  text : TextTree.Cfg
  precision : Nat
  showpoint : Bool
  fl : F → F

/-- The text of a number, `real_write.hpp:48-101`. -/
def encode (c : Cfg F) (x : F) : Option (List Byte) :=
  IntText.encodeReal c.fl c.text.num c.showpoint c.precision (decide (x < 0)) (.finite |x|)

mutual

/-- `write` of one argument, as `TextTree.write`; numbers by `real_write.hpp:42-44`, with `spaced.hpp:54-63`. -/
def write (c : Cfg F) : (t : Ty) → Val F t → St → Option St
  | .real, x, s => writeLeaf c.text (encode c x) s
  | .plain t, x, s => TextTree.write c.text t x s
  | .tuple ts, x, s => (writeTuple c ts x ((s.unit c.text).level true)).map (St.level false)
  | .array _ t, x, s => (writeAll (write c t) x ((s.unit c.text).level true)).map (St.level false)
  | .vec t, x, s =>
    ((writeSize c.text (List.length x) ((s.unit c.text).level true)).bind (writeAll (write c t) x)).map (St.level false)
  | .seq t, x, s =>
    ((writeSize c.text (List.length x) ((s.unit c.text).level true)).bind (writeAll (write c t) x)).map (St.level false)

/-- `write_tuple`, `tuple.hpp:17-21`, `io.hpp:35-38`. -/
def writeTuple (c : Cfg F) : (ts : Tys) → Vals F ts → St → Option St
  | .nil, _, s => some s
  | .cons t ts, x, s => (write c t x.1 s).bind (writeTuple c ts x.2)

end

/-- The text of a value. -/
def text (c : Cfg F) (t : Ty) (x : Val F t) : Option (List Byte) := (write c t x ⟨[], false⟩).map (·.out)

mutual

/-- `read` of one argument into an existing object, as `TextTree.read`; numbers by `parser/arithmetic.hpp:29-32`. -/
def read (c : Cfg F) (r : Reader) : (t : Ty) → Val F t → RSt → Option (Bool × Val F t × RSt)
  | .real, x, s => readLeaf c.text r (IntText.readRealR (F := F) c.fl c.text.num.base) x s
  | .plain t, x, s => TextTree.read c.text r t x s
  | .tuple ts, x, s => nested c.text r (readTuple c r ts x) x s
  | .array _ t, x, s => nested c.text r (readRange (read c r t) x) x s
  | .vec t, x, s =>
    nested c.text r (readContainer c.text r x fun n s =>
      (resize (default t) n x).bind fun xs => readRange (read c r t) xs s) x s
  | .seq t, x, s =>
    nested c.text r (readContainer c.text r x fun n s => readEmplace (read c r t) (default t) n x s) x s

/-- `read_tuple`, `tuple.hpp:23-27`, `io.hpp:45-48`. -/
def readTuple (c : Cfg F) (r : Reader) : (ts : Tys) → Vals F ts → RSt → Option (Bool × Vals F ts × RSt)
  | .nil, x, s => some (true, x, s)
  | .cons t ts, x, s =>
    (read c r t x.1 s).bind fun p =>
      if p.1 then (readTuple c r ts x.2 p.2.2).map fun q => (q.1, (p.2.1, q.2.1), q.2.2)
      else some (false, (p.2.1, x.2), p.2.2)

end

end Actl.RealTree
