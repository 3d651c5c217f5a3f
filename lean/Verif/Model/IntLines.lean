import Verif.Model.IntGeometry
import Verif.Model.Intersect

/-!
# Lines with integer coordinates

The functions of `Model/Geometry.lean` and `Model/Intersect.lean` on lines and points of signed integers: an operation whose exact
result does not fit is undefined (`none`), as in `Model/IntGeometry.lean`.  `w` is the width of coordinates, `W` the width of products
and of their sums.

`ratio(policy, x, y)` is declared nowhere in this snapshot: it is a parameter that gives a number of a type with fractions.  Integer
coordinates that meet such a number in an operation are converted to its type; `fl` rounds the result of conversions and operations.
-/

namespace Actl.Geo

variable {F : Type*} [Field F]

/-- `line(a, b, kind)`, `line.hpp` 115-124. -/
def throughI (w : Nat) (a b : Vec Int 2) (kind : LineKind) : Option (Line Int 2) :=
  (subI w b a).map fun v => { start := a, vector := v, kind := kind }

/-- `line::end()`, `line.hpp` 145-147. -/
def stopI (w : Nat) (l : Line Int 2) : Option (Vec Int 2) :=
  (fitInt w (l.start 0 + l.vector 0)).bind fun x => (fitInt w (l.start 1 + l.vector 1)).map fun y => ![x, y]

/-- `line::operator()` of a number of the type `F`, `line.hpp` 149-157. -/
def atI (fl : F → F) (l : Line Int 2) (t : F) : Vec F 2 :=
  fun i => fl (fl (l.start i) + fl (t * fl (l.vector i)))

/-- `area(point, line)`, `area/point_line.hpp` 14-19. -/
def areaLineI (w W : Nat) (p : Vec Int 2) (l : Line Int 2) : Option Int :=
  (subI w p l.start).bind fun d => areaI W d l.vector

/-- `orientation(point, line)`, `orientation/point_line.hpp` 14-19. -/
def orientationLineI (w W : Nat) (p : Vec Int 2) (l : Line Int 2) : Option Turn :=
  (subI w p l.start).bind fun d => orientationI W d l.vector

/-- `dot(l, r)` in the plane, `point.hpp` 210-218; adding the first product to 0 cannot overflow. -/
def dotI (W : Nat) (l r : Vec Int 2) : Option Int :=
  (fitInt W (l 0 * r 0)).bind fun a => (fitInt W (l 1 * r 1)).bind fun b => fitInt W (a + b)

/-- `between_endpoints` in the plane, `detail/between_endpoints.hpp` 13-27. -/
def betweenEndpointsI (w W : Nat) (p : Vec Int 2) (l : Line Int 2) : Option Bool :=
  if l.kind.last = .free then
    (subI w p l.start).bind fun d => (dotI W d l.vector).map fun x => endpointTest l.kind.first 0 x
  else if l.kind = .halfOpenSegment ∧ isEqual p l.start = true then some false
  else
    (subI w l.start p).bind fun d => (stopI w l).bind fun e => (subI w p e).bind fun f =>
      (dotI W d f).map fun x => endpointTest l.kind.last 0 x

/-- `within(point, line)` in the plane, `within/line.hpp` 15-25; `collinear` is `orientation/point_point.hpp` 14-19. -/
def withinLineI (w W : Nat) (p : Vec Int 2) (l : Line Int 2) : Option Within :=
  if degenerate l.vector then some (if isEqual p l.start then .border else .outside)
  else (subI w p l.start).bind fun d => (orientationI W d l.vector).bind fun t =>
    if t ≠ .collinear then some .outside
    else (betweenEndpointsI w W p l).map fun b => if b then .border else .outside

/-- `cross_test`, `intersect/line_line_2d.hpp` 27-43: all three areas are negated. -/
def crossTestI (W : Nat) (l r : LineKind) (tarea larea rarea : Int) : Option Bool :=
  if tarea < 0 then
    (fitInt W (-tarea)).bind fun t => (fitInt W (-larea)).bind fun a => (fitInt W (-rarea)).map fun b =>
      lineTest l a t && lineTest r b t
  else some (lineTest l larea tarea && lineTest r rarea tarea)

/-- `intersect(line_scalar_policy, lhs, rhs)`, `intersect/line_line_2d.hpp` 47-65. -/
def intersectScalarI (ratio : Int → Int → F) (w W : Nat) (lhs rhs : Line Int 2) : Option (List F) :=
  (areaI W rhs.vector lhs.vector).bind fun tarea =>
    if tarea = 0 then some []
    else
      (subI w lhs.start rhs.start).bind fun v => (areaI W v rhs.vector).bind fun larea =>
        (areaI W v lhs.vector).bind fun rarea => (crossTestI W lhs.kind rhs.kind tarea larea rarea).map fun c =>
          if !c then [] else [ratio larea tarea]

/-- `intersect(general_position_policy, lhs, rhs)`, `intersect/line_line_2d.hpp` 67-80. -/
def intersectGeneralI (ratio : Int → Int → F) (fl : F → F) (w W : Nat) (lhs rhs : Line Int 2) : Option (List (Vec F 2)) :=
  (intersectScalarI ratio w W lhs rhs).map fun ts => ts.map (atI fl lhs)

/-- `max_endpoint`, `detail/common_line.hpp` 15-38, on integer points. -/
def maxEndpointI (lhs rhs : Vec Int 2 × Endpoint) (start : Bool) : Vec Int 2 × Endpoint :=
  if lhs.2 = .free then
    if rhs.2 ≠ .free then rhs
    else if less lhs.1 rhs.1 == start then lhs else rhs
  else if rhs.2 = .free then lhs
  else if less lhs.1 rhs.1 then (if start then rhs else lhs)
  else if less rhs.1 lhs.1 then (if start then lhs else rhs)
  else if rhs.2.val ≤ lhs.2.val then lhs else rhs

/-- `get_point` in `common_line`, `detail/common_line.hpp` 54-58. -/
def getPointI (w : Nat) (l : Line Int 2) (start : Bool) : Option (Vec Int 2 × Endpoint) :=
  if less ![0, 0] l.vector == start then some (l.start, l.kind.first) else (stopI w l).map fun e => (e, l.kind.last)

/-- `endpoint_test` on points, `detail/line_test.hpp` 13-25. -/
def endpointTestPointI (k : Endpoint) (l r : Vec Int 2) : Bool :=
  match k with
  | .free => true
  | .closed => !less r l
  | .opened => less l r

/-- `make_any_line(a, akind, b, bkind)`, `line.hpp` 215-226; `none` also when the kind is not one of the six. -/
def makeAnyLineI (w : Nat) (a : Vec Int 2) (ka : Endpoint) (b : Vec Int 2) (kb : Endpoint) : Option (Line Int 2) :=
  if ka.val < kb.val then
    (LineKind.ofVal (combine kb ka)).bind (throughI w b a)
  else
    (LineKind.ofVal (combine ka kb)).bind (throughI w a b)

/-- `common_line`, `detail/common_line.hpp` 40-67. -/
def commonLineI (w : Nat) (l r : Line Int 2) : Option (List (Line Int 2)) :=
  (getPointI w l true).bind fun l1 => (getPointI w r true).bind fun r1 =>
    (getPointI w l false).bind fun l2 => (getPointI w r false).bind fun r2 =>
      let la := maxEndpointI l1 r1 true
      let lb := maxEndpointI l2 r2 false
      if endpointTestPointI la.2 la.1 lb.1 then (makeAnyLineI w la.1 la.2 lb.1 lb.2).map fun m => [m] else some []

/-- What `intersect` writes: a line of integers, or a point of the type of ratios (as a closed segment with zero vector). -/
inductive CommonI (F : Type*)
  | line (l : Line Int 2)
  | point (p : Vec F 2)

/-- `intersect(lhs, rhs)`, `intersect/line_line_2d.hpp` 82-104. -/
def intersectI (ratio : Int → Int → F) (fl : F → F) (w W : Nat) (lhs rhs : Line Int 2) : Option (List (CommonI F)) :=
  (areaI W rhs.vector lhs.vector).bind fun tarea => (subI w lhs.start rhs.start).bind fun v =>
    (areaI W v rhs.vector).bind fun larea =>
      if tarea = 0 then
        if larea ≠ 0 then some [] else (commonLineI w lhs rhs).map fun out => out.map .line
      else
        (areaI W v lhs.vector).bind fun rarea => (crossTestI W lhs.kind rhs.kind tarea larea rarea).map fun c =>
          if !c then [] else [.point (atI fl lhs (ratio larea tarea))]

/-- `crosses(line, line)`, `crosses/line_line_2d.hpp` 37-44. -/
def crossesLinesI (ratio : Int → Int → F) (fl : F → F) (w W : Nat) (l r : Line Int 2) : Option Bool :=
  (intersectI ratio fl w W l r).map fun out => !out.isEmpty

end Actl.Geo
