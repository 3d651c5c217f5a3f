import Verif.Model.FloatClosest
import Verif.Model.Monotone
import Verif.Model.Extreme

/-!
# Searches in polygons with floating point coordinates

The functions of `Model/Monotone.lean` and `Model/Extreme.lean` on points of a floating point type: `fl` rounds the exact result of every
arithmetic operation, as in `Model/FloatGeometry.lean`.  `turn` is `orientation(policy, l, r, origin)`.  Comparisons of points need no
arithmetic, so `lowerEdge`, `upperEdge` and `toMonotone` are used as they are; so are `isExtreme` and `extremeLoop`, which get the
comparison of vertices.
-/

namespace Actl.Geo

variable {F : Type*} [Field F] [LinearOrder F]

/-- `within(point, monotone_polygon)`, `within/monotone_polygon.hpp` 16-42. -/
def withinMonotoneT (turn : Vec F 2 → Vec F 2 → Vec F 2 → Turn) (p : Vec F 2) (poly : List (Vec F 2)) (right : Nat) :
    Option Within :=
  match poly with
  | [] => some .outside
  | [v] => some (if isEqual p v then .border else .outside)
  | _ =>
    (poly[0]?).bind fun a => (poly[right]?).bind fun m =>
      if less p a || less m p then some .outside
      else
        (lowerEdge poly right p).bind fun e =>
          if turn p e.2 e.1 = .right then
            (upperEdge poly right p).map fun e' => toInclusion (turn p e'.2 e'.1)
          else some (toInclusion (turn p e.2 e.1))

/-- `within(point, convex_monotone_polygon)`, `within/convex_monotone_polygon.hpp` 16-56. -/
def withinConvexMonotoneT (turn : Vec F 2 → Vec F 2 → Vec F 2 → Turn) (p : Vec F 2) (poly : List (Vec F 2)) (right : Nat) :
    Option Within :=
  match poly with
  | [] => some .outside
  | [v] => some (if isEqual p v then .border else .outside)
  | _ =>
    (poly[0]?).bind fun a => (poly[right]?).bind fun m =>
      if less p a || less m p then some .outside
      else
        match turn p m a with
        | .collinear =>
          if isEqual p a || isEqual p m then some .border
          else if right = 1 ∨ right + 1 = poly.length then some .border else some .inside
        | .left => (lowerEdge poly right p).map fun e => toInclusion (turn p e.2 e.1)
        | .right => (upperEdge poly right p).map fun e => toInclusion (turn p e.2 e.1)

/-- `within(point, monotone_polygon)` of a floating point type. -/
def withinMonotoneR (fl : F → F) (p : Vec F 2) (poly : List (Vec F 2)) (right : Nat) : Option Within :=
  withinMonotoneT (orientation3R fl) p poly right

/-- `within(point, convex_monotone_polygon)` of a floating point type. -/
def withinConvexMonotoneR (fl : F → F) (p : Vec F 2) (poly : List (Vec F 2)) (right : Nat) : Option Within :=
  withinConvexMonotoneT (orientation3R fl) p poly right

/-- The lambda `vertex_cmp`, `extreme_vertex.hpp` 23-25. -/
def vertexCmpR (fl : F → F) (direction : Vec F 2 → Vec F 2) (poly : List (Vec F 2)) (i j : Nat) : Turn :=
  Turn.ofSign (areaR fl (subR fl (polyAt poly j) (polyAt poly i)) (direction (polyAt poly j)))

/-- `extreme_vertex(poly, direction)`, `extreme_vertex.hpp` 15-53. -/
def extremeVertexR (fl : F → F) (poly : List (Vec F 2)) (direction : Vec F 2 → Vec F 2) : Option Nat :=
  if poly.length ≤ 1 then none
  else
    let cmp := vertexCmpR fl direction poly
    let f := isExtreme cmp poly.length 0
    some (if f.1 then 0 else extremeLoop cmp poly.length poly.length 0 poly.length f.2)

/-- `tangents(point, convex_polygon, output)`, `point_convex_polygon.hpp` 15-29. -/
def tangentVerticesR (fl : F → F) (p : Vec F 2) (poly : List (Vec F 2)) (output : Output Nat) : Option (Output Nat) := do
  let i ← extremeVertexR fl poly fun x => subR fl x p
  let output := output.put i
  let j ← extremeVertexR fl poly fun x => subR fl p x
  return output.put j

end Actl.Geo
