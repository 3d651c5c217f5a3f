import Verif.Model.IntLines
import Verif.Model.IntPolygon
import Verif.Model.LinePolygon
import Verif.Model.Circles

/-!
# Intersection of a line with a polygon, with integer coordinates

The functions of `Model/LinePolygon.lean` on lines and points of signed integers, as in `Model/IntLines.lean`: `w` is the width of
coordinates, `W` the width of products, `ratio` gives the quotients.  `none` is an operation whose exact result does not fit, a read
outside the array, a failed assertion or a loop that does not end.
-/

namespace Actl.Geo

variable {F : Type*}

/-- `operator-` of a point, `point.hpp` 147-150, coordinate by coordinate. -/
def negI (w : Nat) (p : Vec Int 2) : Option (Vec Int 2) :=
  (fitInt w (-p 0)).bind fun x => (fitInt w (-p 1)).map fun y => ![x, y]

/-- The lambda `vertex_orient`, `line_convex_polygon.hpp` 35-37, and `vertex_sgn`, `line_simple_polygon.hpp` 30-32. -/
def vertexOrientI (w W : Nat) (l : Line Int 2) (poly : List (Vec Int 2)) (i : Nat) : Option Turn :=
  (poly[i]?).bind fun p => orientationLineI w W p l

/-- The loop of `intersect_chain`, `line_convex_polygon.hpp` 47-54, as `chainLoop`.  The first argument bounds the number of iterations. -/
def chainLoopI (orient : Nat → Option Turn) (n : Nat) (firstOrient : Turn) : Nat → Nat → Nat → Option (Nat × Nat)
  | 0, _, _ => none
  | k + 1, first, last =>
    if nextAt n first = last then some (first, last)
    else
      (orient ((first + (last + n - first) % n / 2) % n)).bind fun t =>
        if t = firstOrient then chainLoopI orient n firstOrient k ((first + (last + n - first) % n / 2) % n) last
        else chainLoopI orient n firstOrient k first ((first + (last + n - first) % n / 2) % n)

/-- `intersect(lsp, l, make_line(*i, *j), output)`, the last statement of `intersect_chain`, `line_convex_polygon.hpp` 55-57, and
`line_simple_polygon.hpp` 49. -/
def intersectEdgeI (ratio : Int → Int → F) (w W : Nat) (l : Line Int 2) (poly : List (Vec Int 2)) (i j : Nat) : Option (List F) :=
  (poly[i]?).bind fun p => (poly[j]?).bind fun q => (throughI w p q .free).bind fun e => intersectScalarI ratio w W l e

/-- `intersect(line_scalar_policy, line, convex_polygon, output)`, `line_convex_polygon.hpp` 18-61. -/
def intersectConvexI (ratio : Int → Int → F) (w W : Nat) (l : Line Int 2) (poly : List (Vec Int 2)) : Option (List F) :=
  if degenerate l.vector then none
  else (extremeVertexI w W poly fun _ => some l.vector).bind fun right =>
    (extremeVertexI w W poly fun _ => negI w l.vector).bind fun left =>
      (vertexOrientI w W l poly right).bind fun rightOrient => (vertexOrientI w W l poly left).bind fun leftOrient =>
        if leftOrient = .left ∨ rightOrient = .right then some []
        else
          (chainLoopI (vertexOrientI w W l poly) poly.length leftOrient poly.length left right).bind fun r =>
            (intersectEdgeI ratio w W l poly r.1 r.2).bind fun out =>
              (chainLoopI (vertexOrientI w W l poly) poly.length rightOrient poly.length right left).bind fun r' =>
                (intersectEdgeI ratio w W l poly r'.1 r'.2).map fun out' => out ++ out'

/-- `project(line_scalar_policy, point, line)`, `project/point_line.hpp` 14-22. -/
def projectScalarI (ratio : Int → Int → F) (w W : Nat) (p : Vec Int 2) (l : Line Int 2) : Option F :=
  (subI w p l.start).bind fun d => (dotI W d l.vector).bind fun x => (dotI W l.vector l.vector).map fun y => ratio x y

/-- `sgn(policy, dot(policy, *i - *j, l.vector))`, `line_simple_polygon.hpp` 41 and 44. -/
def edgeSgnI (w W : Nat) (l : Line Int 2) (poly : List (Vec Int 2)) (i j : Nat) : Option Turn :=
  (poly[i]?).bind fun p => (poly[j]?).bind fun q => (subI w p q).bind fun d => (dotI W d l.vector).map Turn.ofSign

/-- The body of the loop, `line_simple_polygon.hpp` 36-50: what is written at the position `i`. -/
def simpleStepI (ratio : Int → Int → F) (w W : Nat) (l : Line Int 2) (poly : List (Vec Int 2)) (i : Nat)
    (prevSgn iterSgn nextSgn : Turn) : Option (List F) :=
  if iterSgn = .collinear then
    (if prevSgn = .collinear then
        (edgeSgnI w W l poly i (prevAt poly.length i)).map fun t => decide (nextSgn = t)
      else if nextSgn = .collinear then
        (edgeSgnI w W l poly (nextAt poly.length i) i).map fun t => decide (prevSgn = t)
      else some (decide (nextSgn ≠ prevSgn))).bind fun ok =>
    if ok then
      (poly[i]?).bind fun p => (betweenEndpointsI w W p l).bind fun b =>
        if b then (projectScalarI ratio w W p l).map fun t => [t] else some []
    else some []
  else if nextSgn = iterSgn.neg then intersectEdgeI ratio w W l poly i (nextAt poly.length i)
  else some []

/-- The loop, `line_simple_polygon.hpp` 34-54; the first argument is `n`. -/
def simpleLoopI (ratio : Int → Int → F) (w W : Nat) (l : Line Int 2) (poly : List (Vec Int 2)) :
    Nat → Nat → Turn → Turn → Option (List F)
  | 0, _, _, _ => some []
  | n + 1, i, prevSgn, iterSgn =>
    (vertexOrientI w W l poly (nextAt poly.length i)).bind fun nextSgn =>
      (simpleStepI ratio w W l poly i prevSgn iterSgn nextSgn).bind fun out =>
        (simpleLoopI ratio w W l poly n (nextAt poly.length i) iterSgn nextSgn).map fun out' => out ++ out'

/-- `intersect(line_scalar_policy, line, simple_polygon, output)`, `line_simple_polygon.hpp` 20-56. -/
def intersectSimpleI (ratio : Int → Int → F) (w W : Nat) (l : Line Int 2) (poly : List (Vec Int 2)) : Option (List F) :=
  if degenerate l.vector then none
  else if poly.length ≤ 1 then none
  else
    (vertexOrientI w W l poly (prevAt poly.length 0)).bind fun prevSgn => (vertexOrientI w W l poly 0).bind fun iterSgn =>
      simpleLoopI ratio w W l poly poly.length 0 prevSgn iterSgn

variable [Field F]

/-- `*output++ = x` through a `scalar_to_point_adaptor`, `detail/scalar_to_point_adaptor.hpp` 24-39: the assignment goes to the iterator
inside, and neither `++` advances it. -/
def putAdaptedI (fl : F → F) (l : Line Int 2) (o : Output (Vec F 2)) (x : F) : Output (Vec F 2) :=
  { writes := o.writes ++ [(o.pos, atI fl l x)], pos := o.pos }

/-- `intersect(policy, line, convex_polygon, output)`, `intersect/intersect.hpp` 24-37: the parameters become points. -/
def convexPointsI (ratio : Int → Int → F) (fl : F → F) (w W : Nat) (l : Line Int 2) (poly : List (Vec Int 2))
    (output : Output (Vec F 2)) : Option (Output (Vec F 2)) :=
  (intersectConvexI ratio w W l poly).map fun ts => ts.foldl (putAdaptedI fl l) output

/-- `intersect(policy, line, simple_polygon, output)`, `intersect/intersect.hpp` 24-37. -/
def simplePointsI (ratio : Int → Int → F) (fl : F → F) (w W : Nat) (l : Line Int 2) (poly : List (Vec Int 2))
    (output : Output (Vec F 2)) : Option (Output (Vec F 2)) :=
  (intersectSimpleI ratio w W l poly).map fun ts => ts.foldl (putAdaptedI fl l) output

end Actl.Geo
