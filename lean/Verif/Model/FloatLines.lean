import Verif.Model.FloatGeometry
import Verif.Model.Intersect
import Verif.Model.Distance

/-!
# Lines with floating point coordinates

The functions of `Model/Geometry.lean`, `Model/Intersect.lean` and `Model/Distance.lean` on lines and points of a floating point
type: `fl` rounds the exact result of every arithmetic operation, as in `Model/FloatGeometry.lean`.  `sqrt` is the exact square
root, which is rounded as well.
-/

namespace Actl.Geo

variable {F : Type*} [Field F] [LinearOrder F]

/-- `line(a, b, kind)`, `line.hpp` 115-124: the vector is a difference of points. -/
def throughR (fl : F → F) (a b : Vec F 2) (kind : LineKind) : Line F 2 := { start := a, vector := subR fl b a, kind := kind }

/-- `line::end()`, `line.hpp` 145-147. -/
def stopR (fl : F → F) (l : Line F 2) : Vec F 2 := fun i => fl (l.start i + l.vector i)

/-- `line::operator()`, `line.hpp` 149-157. -/
def atR (fl : F → F) (l : Line F 2) (t : F) : Vec F 2 := fun i => fl (l.start i + fl (t * l.vector i))

/-- `make_any_line(a, akind, b, bkind)`, `line.hpp` 215-226. -/
def makeAnyLineR (fl : F → F) (a : Vec F 2) (ka : Endpoint) (b : Vec F 2) (kb : Endpoint) : Option (Line F 2) :=
  if ka.val < kb.val then
    (LineKind.ofVal (combine kb ka)).map (throughR fl b a)
  else
    (LineKind.ofVal (combine ka kb)).map (throughR fl a b)

/-- `intersect(line_scalar_policy, lhs, rhs)`, `intersect/line_line_2d.hpp` 47-65. -/
def intersectScalarR (fl : F → F) (lhs rhs : Line F 2) : List F :=
  let tarea := areaR fl rhs.vector lhs.vector
  if tarea = 0 then []
  else
    let v := subR fl lhs.start rhs.start
    let larea := areaR fl v rhs.vector
    let rarea := areaR fl v lhs.vector
    if !crossTest lhs rhs tarea larea rarea then [] else [fl (larea / tarea)]

/-- `intersect(general_position_policy, lhs, rhs)`, `intersect/line_line_2d.hpp` 67-80. -/
def intersectGeneralR (fl : F → F) (lhs rhs : Line F 2) : List (Vec F 2) := (intersectScalarR fl lhs rhs).map (atR fl lhs)

/-- `get_point` in `common_line`, `detail/common_line.hpp` 54-58. -/
def getPointR (fl : F → F) (l : Line F 2) (start : Bool) : End F :=
  if less 0 l.vector == start then (l.start, l.kind.first) else (stopR fl l, l.kind.last)

/-- `common_line`, `detail/common_line.hpp` 40-67. -/
def commonLineR (fl : F → F) (l r : Line F 2) : List (Line F 2) :=
  let la := maxEndpoint (getPointR fl l true) (getPointR fl r true) true
  let lb := maxEndpoint (getPointR fl l false) (getPointR fl r false) false
  if endpointTestPoint la.2 la.1 lb.1 then (makeAnyLineR fl la.1 la.2 lb.1 lb.2).toList else []

/-- `intersect(lhs, rhs)`, `intersect/line_line_2d.hpp` 82-104. -/
def intersectR (fl : F → F) (lhs rhs : Line F 2) : List (Line F 2) :=
  let tarea := areaR fl rhs.vector lhs.vector
  let v := subR fl lhs.start rhs.start
  let larea := areaR fl v rhs.vector
  if tarea = 0 then
    if larea ≠ 0 then [] else commonLineR fl lhs rhs
  else
    let rarea := areaR fl v lhs.vector
    if !crossTest lhs rhs tarea larea rarea then []
    else [{ start := atR fl lhs (fl (larea / tarea)), vector := 0, kind := .closedSegment }]

/-- `crosses(line, line)`, `crosses/line_line_2d.hpp` 37-44. -/
def crossesLinesR (fl : F → F) (l r : Line F 2) : Bool := !(intersectR fl l r).isEmpty

/-- `dot(l, r)`, `point.hpp` 210-218. -/
def dotR (fl : F → F) {n : Nat} (l r : Vec F n) : F :=
  (List.finRange n).foldl (fun res i => fl (res + fl (l i * r i))) 0

/-- `between_endpoints` in the plane, `detail/between_endpoints.hpp` 13-27. -/
def betweenEndpointsR (fl : F → F) (p : Vec F 2) (l : Line F 2) : Bool :=
  if l.kind.last = .free then endpointTest l.kind.first 0 (dotR fl (subR fl p l.start) l.vector)
  else if l.kind = .halfOpenSegment ∧ isEqual p l.start = true then false
  else endpointTest l.kind.last 0 (dotR fl (subR fl l.start p) (subR fl p (stopR fl l)))

/-- `within(point, line)` in the plane, `within/line.hpp` 15-25; `collinear` is `orientation/point_point.hpp` 14-19. -/
def withinLineR (fl : F → F) (p : Vec F 2) (l : Line F 2) : Within :=
  if degenerate l.vector then
    if isEqual p l.start then .border else .outside
  else if !decide (Turn.ofSign (areaR fl l.vector (subR fl p l.start)) = .collinear) then .outside
  else if betweenEndpointsR fl p l then .border else .outside

/-- `norm(point)`, `point/norm.hpp` 14-17. -/
def normR (fl sqrt : F → F) {n : Nat} (p : Vec F n) : F := fl (sqrt (dotR fl p p))

/-- `distance(point, point)`, `distance/point_point.hpp` 14-19. -/
def distancePointR (fl sqrt : F → F) {n : Nat} (p0 p1 : Vec F n) : F := normR fl sqrt fun i => fl (p0 i - p1 i)

end Actl.Geo
