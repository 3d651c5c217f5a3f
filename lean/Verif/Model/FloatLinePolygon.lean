import Verif.Model.FloatPolygon
import Verif.Model.FloatProject
import Verif.Model.LinePolygon

/-!
# Intersection of a line with a polygon in floating point

The functions of `Model/LinePolygon.lean` on lines and points of a floating point type: `fl` rounds the exact result of every arithmetic
operation, as in `Model/FloatGeometry.lean`.  The change of a sign is exact.
-/

namespace Actl.Geo

variable {F : Type*} [Field F] [LinearOrder F]

/-- The lambda `vertex_orient`, `line_convex_polygon.hpp` 35-37, and `vertex_sgn`, `line_simple_polygon.hpp` 30-32, with
`orientation(point, line)`, `orientation/point_line.hpp` 14-19. -/
def vertexOrientR (fl : F → F) (l : Line F 2) (poly : List (Vec F 2)) (i : Nat) : Turn :=
  Turn.ofSign (areaR fl l.vector (subR fl (polyAt poly i) l.start))

/-- The loop of `intersect_chain`, `line_convex_polygon.hpp` 47-54, as `chainLoop`.  `none`: it has not ended after the number of iterations
that is the first argument. -/
def chainLoopT (orient : Nat → Turn) (n : Nat) (firstOrient : Turn) : Nat → Nat → Nat → Option (Nat × Nat)
  | 0, _, _ => none
  | k + 1, first, last =>
    if nextAt n first = last then some (first, last)
    else
      let middle := (first + (last + n - first) % n / 2) % n
      if orient middle = firstOrient then chainLoopT orient n firstOrient k middle last
      else chainLoopT orient n firstOrient k first middle

/-- The lambda `intersect_chain`, `line_convex_polygon.hpp` 45-58: what it writes. -/
def intersectChainR (fl : F → F) (l : Line F 2) (poly : List (Vec F 2)) (first last : Nat) (firstOrient : Turn) :
    Option (List F) :=
  (chainLoopT (vertexOrientR fl l poly) poly.length firstOrient poly.length first last).map fun r =>
    intersectScalarR fl l (throughR fl (polyAt poly r.1) (polyAt poly r.2) .free)

/-- `intersect(line_scalar_policy, line, convex_polygon, output)`, `line_convex_polygon.hpp` 18-61: the parameters written to the
output.  `none`: an assertion fails, or a loop does not end. -/
def intersectConvexR (fl : F → F) (l : Line F 2) (poly : List (Vec F 2)) : Option (List F) :=
  if degenerate l.vector then none
  else (extremeVertexR fl poly fun _ => l.vector).bind fun right =>
    (extremeVertexR fl poly fun _ => -l.vector).bind fun left =>
      let rightOrient := vertexOrientR fl l poly right
      let leftOrient := vertexOrientR fl l poly left
      if leftOrient = .left ∨ rightOrient = .right then some []
      else (intersectChainR fl l poly left right leftOrient).bind fun out =>
        (intersectChainR fl l poly right left rightOrient).map fun out' => out ++ out'

/-- The body of the loop, `line_simple_polygon.hpp` 36-50: what is written at the position `i`. -/
def simpleStepR (fl : F → F) (l : Line F 2) (poly : List (Vec F 2)) (i : Nat) (prevSgn iterSgn nextSgn : Turn) : List F :=
  if iterSgn = .collinear then
    let ok : Bool :=
      if prevSgn = .collinear then
        decide (nextSgn = Turn.ofSign (dotR fl (subR fl (polyAt poly i) (polyAt poly (prevAt poly.length i))) l.vector))
      else if nextSgn = .collinear then
        decide (prevSgn = Turn.ofSign (dotR fl (subR fl (polyAt poly (nextAt poly.length i)) (polyAt poly i)) l.vector))
      else decide (nextSgn ≠ prevSgn)
    if ok && betweenEndpointsR fl (polyAt poly i) l then [projectScalarR fl (polyAt poly i) l] else []
  else if nextSgn = iterSgn.neg then
    intersectScalarR fl l (throughR fl (polyAt poly i) (polyAt poly (nextAt poly.length i)) .free)
  else []

/-- The loop, `line_simple_polygon.hpp` 34-54; the first argument is `n`. -/
def simpleLoopR (fl : F → F) (l : Line F 2) (poly : List (Vec F 2)) : Nat → Nat → Turn → Turn → List F
  | 0, _, _, _ => []
  | n + 1, i, prevSgn, iterSgn =>
    let nextSgn := vertexOrientR fl l poly (nextAt poly.length i)
    simpleStepR fl l poly i prevSgn iterSgn nextSgn ++ simpleLoopR fl l poly n (nextAt poly.length i) iterSgn nextSgn

/-- `intersect(line_scalar_policy, line, simple_polygon, output)`, `line_simple_polygon.hpp` 20-56: the parameters written to the
output.  `none`: an assertion fails. -/
def intersectSimpleR (fl : F → F) (l : Line F 2) (poly : List (Vec F 2)) : Option (List F) :=
  if degenerate l.vector then none
  else if poly.length ≤ 1 then none
  else some (simpleLoopR fl l poly poly.length 0 (vertexOrientR fl l poly (prevAt poly.length 0)) (vertexOrientR fl l poly 0))

/-- `*output++ = x` through a `scalar_to_point_adaptor`, `detail/scalar_to_point_adaptor.hpp` 24-39: the assignment goes to the iterator
inside, and neither `++` advances it. -/
def putAdaptedR (fl : F → F) (l : Line F 2) (o : Output (Vec F 2)) (x : F) : Output (Vec F 2) :=
  { writes := o.writes ++ [(o.pos, atR fl l x)], pos := o.pos }

/-- `intersect(policy, line, convex_polygon, output)`, `intersect/intersect.hpp` 24-37: the parameters become points. -/
def convexPointsR (fl : F → F) (l : Line F 2) (poly : List (Vec F 2)) (output : Output (Vec F 2)) : Option (Output (Vec F 2)) :=
  (intersectConvexR fl l poly).map fun ts => ts.foldl (putAdaptedR fl l) output

/-- `intersect(policy, line, simple_polygon, output)`, `intersect/intersect.hpp` 24-37. -/
def simplePointsR (fl : F → F) (l : Line F 2) (poly : List (Vec F 2)) (output : Output (Vec F 2)) : Option (Output (Vec F 2)) :=
  (intersectSimpleR fl l poly).map fun ts => ts.foldl (putAdaptedR fl l) output

end Actl.Geo
