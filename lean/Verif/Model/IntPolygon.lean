import Verif.Model.IntGeometry
import Verif.Model.Monotone
import Verif.Model.Extreme

/-!
# Searches in polygons with integer coordinates

The functions of `Model/Monotone.lean`, `Model/Antipodal.lean`, `Model/Extreme.lean` and
`Model/SortAngle.lean` on points of signed integers of the machine, as in `Model/IntGeometry.lean`: `w` is
the width in which coordinates are subtracted, `W` the width of products.  `none` is an operation whose
exact result does not fit, or a read outside the array.  Comparisons of points need no arithmetic, so
`lowerEdge`, `upperEdge` and `toMonotone` are used as they are.
-/

namespace Actl.Geo

/-- `within(point, monotone_polygon)`, `within/monotone_polygon.hpp` 16-42. -/
def withinMonotoneI (w W : Nat) (p : Vec Int 2) (poly : List (Vec Int 2)) (right : Nat) :
    Option Within :=
  match poly with
  | [] => some .outside
  | [v] => some (if isEqual p v then .border else .outside)
  | _ =>
    (poly[0]?).bind fun a => (poly[right]?).bind fun m =>
      if less p a || less m p then some .outside
      else
        (lowerEdge poly right p).bind fun e => (orientation3I w W p e.2 e.1).bind fun t =>
          if t = .right then
            (upperEdge poly right p).bind fun e' =>
              (orientation3I w W p e'.2 e'.1).map toInclusion
          else some (toInclusion t)

/-- `within(point, convex_monotone_polygon)`, `within/convex_monotone_polygon.hpp` 16-56. -/
def withinConvexMonotoneI (w W : Nat) (p : Vec Int 2) (poly : List (Vec Int 2)) (right : Nat) :
    Option Within :=
  match poly with
  | [] => some .outside
  | [v] => some (if isEqual p v then .border else .outside)
  | _ =>
    (poly[0]?).bind fun a => (poly[right]?).bind fun m =>
      if less p a || less m p then some .outside
      else
        (orientation3I w W p m a).bind fun t =>
          match t with
          | .collinear =>
            if isEqual p a || isEqual p m then some .border
            else if right = 1 ∨ right + 1 = poly.length then some .border else some .inside
          | .left =>
            (lowerEdge poly right p).bind fun e => (orientation3I w W p e.2 e.1).map toInclusion
          | .right =>
            (upperEdge poly right p).bind fun e => (orientation3I w W p e.2 e.1).map toInclusion

/-- `vecj`, `antipodal_vertices.hpp` 25. -/
def edgeFromI (w : Nat) (poly : List (Vec Int 2)) (j : Nat) : Option (Vec Int 2) :=
  (poly[if j + 1 ≠ poly.length then j + 1 else 0]?).bind fun q => (poly[j]?).bind fun p => subI w q p

/-- The inner loop of `antipodal_vertices.hpp` 23-28. -/
def antipodalInnerI (w W : Nat) (poly : List (Vec Int 2)) (i : Nat) :
    Nat → Nat → List (Nat × Nat) → Option (Nat × List (Nat × Nat))
  | 0, j, out => some (j, out)
  | k + 1, j, out =>
    (edgeFromI w poly j).bind fun vecj => (poly[i + 1]?).bind fun q => (poly[i]?).bind fun p =>
      (subI w q p).bind fun v => (orientationI W v vecj).bind fun t =>
        if t = .left then antipodalInnerI w W poly i k (j + 1) (out ++ [(i, j)])
        else some (j, out ++ [(i, j)])

/-- The outer loop of `antipodal_vertices.hpp` 22-29; the first argument as in `antipodalOuter`. -/
def antipodalOuterI (w W : Nat) (poly : List (Vec Int 2)) :
    Nat → Nat → Nat → List (Nat × Nat) → Option (List (Nat × Nat))
  | 0, _, _, _ => none
  | k + 1, i, j, out =>
    if j = poly.length then some out
    else (antipodalInnerI w W poly i (poly.length - j) j out).bind fun r =>
      antipodalOuterI w W poly k (i + 1) r.1 r.2

/-- `antipodal_vertices`, `antipodal_vertices.hpp` 15-31. -/
def antipodalVerticesI (w W : Nat) (poly : List (Vec Int 2)) : Option (List (Nat × Nat)) :=
  if poly.length = 0 then none else antipodalOuterI w W poly (poly.length + 1) 0 1 []

/-- The lambda `vertex_cmp`, `extreme_vertex.hpp` 23-25. -/
def vertexCmpI (w W : Nat) (direction : Vec Int 2 → Option (Vec Int 2)) (poly : List (Vec Int 2))
    (i j : Nat) : Option Turn :=
  (poly[j]?).bind fun q => (poly[i]?).bind fun p => (direction q).bind fun d =>
    (subI w q p).bind fun v => orientationI W d v

/-- The lambda `is_extreme`, `extreme_vertex.hpp` 26-34; `&&` does not always evaluate its second
operand. -/
def isExtremeI (cmp : Nat → Nat → Option Turn) (n i : Nat) : Option (Bool × Turn) :=
  (cmp (nextAt n i) i).bind fun v =>
    if v ≠ .left then (cmp i (prevAt n i)).map fun u => (decide (u = .left), v)
    else some (false, v)

/-- The loop of `extreme_vertex.hpp` 39-51; the first argument as in `extremeLoop`. -/
def extremeLoopI (cmp : Nat → Nat → Option Turn) (n : Nat) : Nat → Nat → Nat → Turn → Option Nat
  | 0, first, _, _ => some first
  | k + 1, first, last, firstSgn =>
    if first + 1 = last then some first
    else
      (isExtremeI cmp n (first + (last - first) / 2)).bind fun m =>
        if m.1 then some (first + (last - first) / 2)
        else
          (if firstSgn ≠ m.2 then some (decide (firstSgn.value < m.2.value))
            else (cmp first (first + (last - first) / 2)).map fun t => decide (firstSgn = t)).bind fun b =>
              if b then extremeLoopI cmp n k first (first + (last - first) / 2) firstSgn
              else extremeLoopI cmp n k (first + (last - first) / 2) last m.2

/-- `extreme_vertex(poly, direction)`, `extreme_vertex.hpp` 15-53. -/
def extremeVertexI (w W : Nat) (poly : List (Vec Int 2))
    (direction : Vec Int 2 → Option (Vec Int 2)) : Option Nat :=
  if poly.length ≤ 1 then none
  else
    (isExtremeI (vertexCmpI w W direction poly) poly.length 0).bind fun f =>
      if f.1 then some 0
      else extremeLoopI (vertexCmpI w W direction poly) poly.length poly.length 0 poly.length f.2

/-- `tangents(point, convex_polygon, output)`, `tangents/point_convex_polygon.hpp` 15-29. -/
def tangentVerticesI (w W : Nat) (p : Vec Int 2) (poly : List (Vec Int 2)) (output : Output Nat) :
    Option (Output Nat) :=
  (extremeVertexI w W poly fun x => subI w x p).bind fun i =>
    (extremeVertexI w W poly fun x => subI w p x).map fun j => (output.put i).put j

/-- The lambda `comp` of `sort_by_angle.hpp` 52-54. -/
def angleLessI (W : Nat) (l r : Vec Int 2) : Option Bool :=
  (orientationI W l r).map fun t => decide (t = .left)

end Actl.Geo
