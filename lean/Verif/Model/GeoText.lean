import Verif.Model.TextTree
import Verif.Model.Binary

/-!
# Objects of geometry as text and as bytes

Model of the serialization of `geometry/{point,sphere,plane,line}.hpp`: `INTROSPECT`, `utility/introspection.hpp:12-33`, gives a class the
members `write_final` and `read_final`, which write and read the listed members one after the other, one level deeper
(`read_write.hpp:22-41`), like a tuple of them.

Simplifications: coordinates are built-in integers (for text) and arithmetic types (for bytes).  The headers of
geometry do not compile as they stand; what does not concern serialization is left aside.
-/

namespace Actl.TextTree

open Actl.Text

/-- `point<T, n>` with the integers of width `w` as coordinates, `point.hpp:79`: a span of the coordinates.  The value is
`(coordinates, ())`. -/
def pointTy (n w : Nat) (signed : Bool) : Ty := .tuple (.cons (.array n (.int w signed)) .nil)

/-- The point with given coordinates. -/
def pointVal {n w : Nat} {signed : Bool} (x : List Int) : Val (pointTy n w signed) := (x, ())

/-- `sphere<T, n>`, `sphere.hpp:39`, and `plane<T, n>`, `plane.hpp:53`: a point and a number. -/
def sphereTy (n w : Nat) (signed : Bool) : Ty := .tuple (.cons (pointTy n w signed) (.cons (.int w signed) .nil))

/-- The sphere or plane with given center or normal vector and given radius or distance. -/
def sphereVal {n w : Nat} {signed : Bool} (x : List Int) (d : Int) : Val (sphereTy n w signed) := (pointVal x, d, ())

/-- `line`, `ray` and `segment`, `line.hpp:158-168`: two points and `base()`, which is an empty object, `line.hpp:50-63`.  An empty object
is a unit for `spaced` and writes and reads nothing, `empty.hpp:13-23`, just like an empty tuple. -/
def lineTy (n w : Nat) (signed : Bool) : Ty :=
  .tuple (.cons (pointTy n w signed) (.cons (pointTy n w signed) (.cons (.tuple .nil) .nil)))

/-- The line with given members `begin` and `vector`. -/
def lineVal {n w : Nat} {signed : Bool} (a v : List Int) : Val (lineTy n w signed) := (pointVal a, pointVal v, (), ())

/-- Writing `base()` of an `any_line`, `line.hpp:85-87`: the object is a unit for `spaced`, then its kind is written as an `int`, which is
another one; there is no level between them, since `any_kind` is no tuple. -/
def writeKind (c : Cfg) (kind : Nat) (s : St) : Option St := writeLeaf c (IntText.encode 32 true c.num kind) (s.unit c)

/-- Writing an `any_line`, `line.hpp:168`.  Reading one does not compile: `read_final` of `any_kind`, `line.hpp:89-91`, reads an enumeration, for
which there is no overload. -/
def writeAnyLine (c : Cfg) (n w : Nat) (signed : Bool) (a v : List Int) (kind : Nat) (s : St) : Option St :=
  ((write c (pointTy n w signed) (pointVal a) ((s.unit c).level true)).bind fun s =>
    (write c (pointTy n w signed) (pointVal v) s).bind fun s => writeKind c kind s).map (St.level false)

/-- The text of an `any_line`. -/
def anyLineText (c : Cfg) (n w : Nat) (signed : Bool) (a v : List Int) (kind : Nat) : Option (List Byte) :=
  (writeAnyLine c n w signed a v kind ⟨[], false⟩).map (·.out)

end Actl.TextTree

namespace Actl.Binary

/-- `point<T, n>` with an arithmetic type of `k` bytes, in the binary format. -/
def pointBin (n k : Nat) : Ty := .array n (.arith k)

/-- `sphere<T, n>` and `plane<T, n>`. -/
def sphereBin (n k : Nat) : Ty := .pair (pointBin n k) (.pair (.arith k) .unit)

/-- `line`, `ray` and `segment`. -/
def lineBin (n k : Nat) : Ty := .pair (pointBin n k) (.pair (pointBin n k) (.pair .unit .unit))

end Actl.Binary
