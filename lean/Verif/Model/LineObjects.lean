import Verif.Model.Geometry
import Verif.Model.Ints

/-!
# Lines as objects

Model of `geometry/line.hpp`: the kinds that are kept at compile time and at run time, the constructors, the conversions between
types of lines, `end()`, and the functions `make_line`, `make_ray`, `make_segment`, `make_any_line`.

Simplifications.
* Coordinates are built-in integers, with `int` of 32 bits.
* `none` stands for a failed assertion and for signed overflow.
* `swap` of lines does not compile (line 142 exchanges a kind and a line) and is not modelled; neither is the serialization.
-/

namespace Actl.Geo

open Ints (IntT)

/-- The usual arithmetic conversions of two promoted types, [expr.arith.conv]. -/
def usual (a b : IntT) : IntT :=
  if a.signed = b.signed then ⟨a.signed, max a.width b.width⟩
  else
    let u := if a.signed then b else a
    let s := if a.signed then a else b
    if s.width ≤ u.width then u else s

/-- The type in which `x + y` and `x - y` are computed. -/
def arithTy (a b : IntT) : IntT := usual a.promote b.promote

/-- `geometry::scalar_t<T0, T1>`, `traits.hpp` 50-53: `std::common_type_t`. -/
def scalarTy (a b : IntT) : IntT := if a = b then a else arithTy a b

/-- The base class of a line: `detail::static_kind<Kind>` (`line.hpp` 50-63) or `detail::any_kind` (65-92). -/
inductive KindTy
  | fixed (k : LineKind)
  | any
deriving DecidableEq, Repr

/-- A type `line<T, N, Kind>`, `line.hpp` 96-101. -/
structure LineTy where
  coord : IntT
  kind : KindTy
deriving DecidableEq, Repr

/-- An object of such a type: `begin`, `vector` and the byte that `kind()` returns. -/
structure LineObj (n : Nat) where
  start : Vec Int n
  vector : Vec Int n
  kind : Nat

/-- `operator=(line_kind)`, and the constructors, which call it (`line.hpp` 52-54, 60-62, 67-74).  `none`: the assertion fails. -/
def setKind : KindTy → Nat → Option Nat
  | .fixed k, b => if k.val = b then some k.val else none
  | .any, b => if isValidKind b then some b else none

/-- The argument that the constructors of the kinds have by default, `line.hpp` 52 and 67. -/
def defaultKind : KindTy → Nat
  | .fixed k => k.val
  | .any => LineKind.free.val

/-- `point<T, N>{r}`, `point.hpp` 41-45. -/
def castPoint {n : Nat} (t : IntT) (p : Vec Int n) : Vec Int n := fun i => t.cast (p i)

/-- All the values of the coordinates, or none when one of them is undefined. -/
def allCoords {n : Nat} (p : Fin n → Option Int) : Option (Vec Int n) :=
  if h : ∀ i, (p i).isSome then some fun i => (p i).get (h i) else none

/-- `l - r` of two points, `point.hpp` 157-160. -/
def pointSub {n : Nat} (tl : IntT) (l : Vec Int n) (tr : IntT) (r : Vec Int n) : Option (Vec Int n) :=
  let t := arithTy tl tr
  allCoords fun i => t.arith (t.cast (l i) - t.cast (r i))

/-- `l + r` of two points, `point.hpp` 152-155. -/
def pointAdd {n : Nat} (tl : IntT) (l : Vec Int n) (tr : IntT) (r : Vec Int n) : Option (Vec Int n) :=
  let t := arithTy tl tr
  allCoords fun i => t.arith (t.cast (l i) + t.cast (r i))

/-- The default constructor, `line.hpp` 106; the coordinates of the points are zero (`point.hpp` 35-38). -/
def LineObj.default {n : Nat} (t : LineTy) : Option (LineObj n) :=
  (setKind t.kind (defaultKind t.kind)).map fun k => ⟨fun _ => 0, fun _ => 0, k⟩

/-- The constructors from two points, `line.hpp` 108-124, without a kind (`none`) and with one. -/
def LineObj.make {n : Nat} (t : LineTy) (ta : IntT) (a : Vec Int n) (tb : IntT) (b : Vec Int n) (kind : Option Nat)
    (vector : Bool) : Option (LineObj n) :=
  (setKind t.kind (kind.getD (defaultKind t.kind))).bind fun k =>
    if vector then some ⟨castPoint t.coord a, castPoint t.coord b, k⟩
    else (pointSub tb b ta a).map fun v => ⟨castPoint t.coord a, castPoint t.coord v, k⟩

/-- The constructor and the assignment from a line of another type, `line.hpp` 126-136. -/
def LineObj.convert {n : Nat} (t : LineTy) (r : LineObj n) : Option (LineObj n) :=
  (setKind t.kind r.kind).map fun k => ⟨castPoint t.coord r.start, castPoint t.coord r.vector, k⟩

/-- `end()`, `line.hpp` 145-147. -/
def LineObj.stop {n : Nat} (t : LineTy) (o : LineObj n) : Option (Vec Int n) :=
  (pointAdd t.coord o.start t.coord o.vector).map (castPoint t.coord)

/-- `degenerate(line)`, `line.hpp` 228-231. -/
def LineObj.degenerate {n : Nat} (o : LineObj n) : Bool := Geo.degenerate o.vector

/-- `make_line(a, b, vector)`, `line.hpp` 185-190. -/
def mkLine {n : Nat} (ta : IntT) (a : Vec Int n) (tb : IntT) (b : Vec Int n) (vector : Bool) : Option (LineObj n) :=
  LineObj.make ⟨scalarTy ta tb, .fixed .free⟩ ta a tb b none vector

/-- `make_ray(a, b, vector)`, `line.hpp` 192-197. -/
def mkRay {n : Nat} (ta : IntT) (a : Vec Int n) (tb : IntT) (b : Vec Int n) (vector : Bool) : Option (LineObj n) :=
  LineObj.make ⟨scalarTy ta tb, .fixed .closedRay⟩ ta a tb b none vector

/-- `make_segment(a, b, vector)`, `line.hpp` 199-204. -/
def mkSegment {n : Nat} (ta : IntT) (a : Vec Int n) (tb : IntT) (b : Vec Int n) (vector : Bool) : Option (LineObj n) :=
  LineObj.make ⟨scalarTy ta tb, .fixed .closedSegment⟩ ta a tb b none vector

/-- `make_any_line(a, b, kind, vector)`, `line.hpp` 206-213. -/
def mkAny {n : Nat} (ta : IntT) (a : Vec Int n) (tb : IntT) (b : Vec Int n) (kind : Nat) (vector : Bool) : Option (LineObj n) :=
  LineObj.make ⟨scalarTy ta tb, .any⟩ ta a tb b (some kind) vector

/-- `make_any_line(a, akind, b, bkind)`, `line.hpp` 215-226. -/
def mkAnyEnds {n : Nat} (ta : IntT) (a : Vec Int n) (ka : Endpoint) (tb : IntT) (b : Vec Int n) (kb : Endpoint) :
    Option (LineObj n) :=
  if ka.val < kb.val then LineObj.make ⟨scalarTy tb ta, .any⟩ tb b ta a (some (combine kb ka)) false
  else LineObj.make ⟨scalarTy ta tb, .any⟩ ta a tb b (some (combine ka kb)) false

/-- A statement about variables of types of lines: give a variable the value of a new line, or of another variable. -/
inductive LineOp (m n : Nat)
  | make (i : Fin m) (ta : IntT) (a : Vec Int n) (tb : IntT) (b : Vec Int n) (kind : Option Nat) (vector : Bool)
  | assign (i j : Fin m)

/-- Running one statement on the variables, which have the types `ty`. -/
def LineOp.run {m n : Nat} (ty : Fin m → LineTy) (s : Fin m → LineObj n) : LineOp m n → Option (Fin m → LineObj n)
  | .make i ta a tb b kind vector => (LineObj.make (ty i) ta a tb b kind vector).map (Function.update s i)
  | .assign i j => (LineObj.convert (ty i) (s j)).map (Function.update s i)

/-- Running several statements. -/
def LineOp.runAll {m n : Nat} (ty : Fin m → LineTy) (ops : List (LineOp m n)) (s : Fin m → LineObj n) :
    Option (Fin m → LineObj n) := ops.foldlM (LineOp.run ty) s

end Actl.Geo
