import Verif.Model.Binary

/-!
The numbers a value consists of in the binary format, and their bytes.
-/

namespace Actl.Binary

open Actl.Text

/-- A number of `size` bytes. -/
structure Field where
  size : Nat
  value : Nat

/-- The bytes of a number, the least significant one first. -/
def Field.bytes (f : Field) : List Byte := (List.range f.size).map fun i => BitVec.ofNat 8 (f.value / 256 ^ i)

/-- The numbers in the order in which they are written; dynamic containers begin with the number of elements. -/
def fields : (t : Ty) → Val t → List Field
  | .unit, _ => []
  | .arith n, x => [⟨n, BitVec.toNat (w := 8 * n) x⟩]
  | .pair a b, x => fields a x.1 ++ fields b x.2
  | .array _ t, x => List.flatMap (fields t) x
  | .vec t, x => ⟨8, List.length x⟩ :: List.flatMap (fields t) x
  | .seq t, x => ⟨8, List.length x⟩ :: List.flatMap (fields t) x

/-- All bytes of a value. -/
def image (t : Ty) (x : Val t) : List Byte := ((fields t x).map Field.bytes).flatten

end Actl.Binary
