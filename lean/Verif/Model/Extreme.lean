import Verif.Model.Antipodal
import Verif.Model.Circles

/-!
# Extreme vertices of a convex polygon and tangents

Model of `include/actl/geometry/algorithm/polygon/extreme_vertex.hpp` and
`tangents/point_convex_polygon.hpp`.  Iterators of the polygon are positions.
-/

namespace Actl.Geo

variable {F : Type*} [Add F] [Mul F] [Sub F] [Zero F] [LinearOrder F]

/-- The values of `orientation2d` (`algorithm/orientation/orientation.hpp`) as numbers, for `<`. -/
def Turn.value : Turn → Int
  | .left => -1
  | .collinear => 0
  | .right => 1

/-- The lambda `vertex_cmp`, `extreme_vertex.hpp` 23-25. -/
def vertexCmp (direction : Vec F 2 → Vec F 2) (poly : List (Vec F 2)) (i j : Nat) : Turn :=
  orientation (direction (polyAt poly j)) (polyAt poly j - polyAt poly i)

/-- `cyclic_iterator{poly, iter} + 1`. -/
def nextAt (n i : Nat) : Nat := if i + 1 = n then 0 else i + 1

/-- `cyclic_iterator{poly, iter} - 1`. -/
def prevAt (n i : Nat) : Nat := if i = 0 then n - 1 else i - 1

/-- The lambda `is_extreme`, `extreme_vertex.hpp` 26-34. -/
def isExtreme (cmp : Nat → Nat → Turn) (n i : Nat) : Bool × Turn :=
  let v := cmp (nextAt n i) i
  (decide (v ≠ .left) && decide (cmp i (prevAt n i) = .left), v)

/-- The loop, `extreme_vertex.hpp` 39-51.  The first argument bounds `last - first`. -/
def extremeLoop (cmp : Nat → Nat → Turn) (n : Nat) : Nat → Nat → Nat → Turn → Nat
  | 0, first, _, _ => first
  | k + 1, first, last, firstSgn =>
    if first + 1 = last then first
    else
      let middle := first + (last - first) / 2
      let m := isExtreme cmp n middle
      if m.1 then middle
      else if (if firstSgn ≠ m.2 then firstSgn.value < m.2.value else firstSgn = cmp first middle) then
        extremeLoop cmp n k first middle firstSgn
      else extremeLoop cmp n k middle last m.2

/-- `extreme_vertex(poly, direction)`, `extreme_vertex.hpp` 15-53.  `none`: `cyclic_iterator` asserts
that the polygon is not empty and that a step is less than the number of vertices. -/
def extremeVertex (poly : List (Vec F 2)) (direction : Vec F 2 → Vec F 2) : Option Nat :=
  if poly.length ≤ 1 then none
  else
    let cmp := vertexCmp direction poly
    let f := isExtreme cmp poly.length 0
    some (if f.1 then 0 else extremeLoop cmp poly.length poly.length 0 poly.length f.2)

/-- `tangents(point, convex_polygon, output)`, `point_convex_polygon.hpp` 15-29. -/
def tangentVertices (p : Vec F 2) (poly : List (Vec F 2)) (output : Output Nat) :
    Option (Output Nat) := do
  let i ← extremeVertex poly fun x => x - p
  let output := output.put i
  let j ← extremeVertex poly fun x => p - x
  return output.put j

end Actl.Geo
