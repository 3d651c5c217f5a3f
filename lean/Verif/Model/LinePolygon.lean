import Verif.Model.Extreme
import Verif.Model.Intersect

/-!
# Intersection of a line with a polygon

Model of `algorithm/intersect/line_convex_polygon.hpp` and `line_simple_polygon.hpp`.  As
`line_line_2d.hpp` the headers name the template parameter `P` without declaring it; the model takes it
for the policy parameter.  `line_simple_polygon.hpp` 33 names an undeclared `it`; the model takes it for
`iter`.  Iterators of the polygon are positions.
-/

namespace Actl.Geo

variable {F : Type*} [Field F] [LinearOrder F]

/-- The lambda `vertex_orient`, `line_convex_polygon.hpp` 35-37, with `orientation(point, line)`,
`orientation/point_line.hpp` 14-19. -/
def vertexOrient (l : Line F 2) (poly : List (Vec F 2)) (i : Nat) : Turn :=
  orientation (polyAt poly i - l.start) l.vector

/-- The loop of `intersect_chain`, `line_convex_polygon.hpp` 47-54, on cyclic iterators of a range of
`n` elements (`range/iterator/cyclic_iterator.hpp` 34-68).  The first argument bounds the number of
iterations. -/
def chainLoop (orient : Nat → Turn) (n : Nat) (firstOrient : Turn) : Nat → Nat → Nat → Nat × Nat
  | 0, first, last => (first, last)
  | k + 1, first, last =>
    if nextAt n first = last then (first, last)
    else
      let middle := (first + (last + n - first) % n / 2) % n
      if orient middle = firstOrient then chainLoop orient n firstOrient k middle last
      else chainLoop orient n firstOrient k first middle

/-- The lambda `intersect_chain`, `line_convex_polygon.hpp` 45-58: what it writes. -/
def intersectChain (l : Line F 2) (poly : List (Vec F 2)) (first last : Nat) (firstOrient : Turn) :
    List F :=
  let r := chainLoop (vertexOrient l poly) poly.length firstOrient poly.length first last
  intersectScalar l (Line.through (polyAt poly r.1) (polyAt poly r.2) .free)

/-- `intersect(line_scalar_policy, line, convex_polygon, output)`, `line_convex_polygon.hpp` 18-61:
the parameters written to the output.  `none`: the assertion on the line or of a cyclic iterator
fails. -/
def intersectConvex (l : Line F 2) (poly : List (Vec F 2)) : Option (List F) :=
  if degenerate l.vector then none
  else (extremeVertex poly fun _ => l.vector).bind fun right =>
    (extremeVertex poly fun _ => -l.vector).bind fun left =>
      let rightOrient := vertexOrient l poly right
      let leftOrient := vertexOrient l poly left
      if leftOrient = .left ∨ rightOrient = .right then some []
      else some (intersectChain l poly left right leftOrient ++
        intersectChain l poly right left rightOrient)

/-- The body of the loop of `intersect(line_scalar_policy, line, simple_polygon, output)`,
`line_simple_polygon.hpp` 36-50: what is written at the position `i`.  The `int` values -1, 0, 1 of
`vertex_sgn` and `sgn` are represented by the orientations with these values. -/
def simpleStep (l : Line F 2) (poly : List (Vec F 2)) (i : Nat) (prevSgn iterSgn nextSgn : Turn) :
    List F :=
  if iterSgn = .collinear then
    let ok : Bool :=
      if prevSgn = .collinear then
        decide (nextSgn =
          Turn.ofSign (dot (polyAt poly i - polyAt poly (prevAt poly.length i)) l.vector))
      else if nextSgn = .collinear then
        decide (prevSgn =
          Turn.ofSign (dot (polyAt poly (nextAt poly.length i) - polyAt poly i) l.vector))
      else decide (nextSgn ≠ prevSgn)
    if ok && betweenEndpoints (polyAt poly i) l then [projectScalar (polyAt poly i) l] else []
  else if nextSgn = iterSgn.neg then
    intersectScalar l (Line.through (polyAt poly i) (polyAt poly (nextAt poly.length i)) .free)
  else []

/-- The loop, `line_simple_polygon.hpp` 34-54; the first argument is `n`. -/
def simpleLoop (l : Line F 2) (poly : List (Vec F 2)) : Nat → Nat → Turn → Turn → List F
  | 0, _, _, _ => []
  | n + 1, i, prevSgn, iterSgn =>
    let nextSgn := vertexOrient l poly (nextAt poly.length i)
    simpleStep l poly i prevSgn iterSgn nextSgn ++
      simpleLoop l poly n (nextAt poly.length i) iterSgn nextSgn

/-- `intersect(line_scalar_policy, line, simple_polygon, output)`, `line_simple_polygon.hpp` 20-56: the
parameters written to the output.  `none`: the assertion on the line or of the cyclic iterator (a step
is less than the number of vertices) fails. -/
def intersectSimple (l : Line F 2) (poly : List (Vec F 2)) : Option (List F) :=
  if degenerate l.vector then none
  else if poly.length ≤ 1 then none
  else some (simpleLoop l poly poly.length 0 (vertexOrient l poly (prevAt poly.length 0))
    (vertexOrient l poly 0))

end Actl.Geo
