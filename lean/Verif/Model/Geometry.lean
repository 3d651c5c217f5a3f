import Mathlib.Algebra.Order.Field.Basic
import Mathlib.Data.Fin.VecNotation
import Mathlib.Algebra.Module.Pi

/-!
# Points, lines, planes and the exact predicates on them

Model of `include/actl/geometry`: `point.hpp`, `line.hpp`, `plane.hpp`, `detail/*.hpp` and the
algorithms `area`, `orientation`, `within`, `project`, `reflect`, `rotate`.

Scalars are the elements of a field `F` with decidable order: the arithmetic is exact.  The
`policy` parameter of the code (which selects the type of intermediate results and the tolerance of
comparisons) is therefore dropped: `product` is `*`, `ratio` is `/`, `is_equal` is `=` and `less`
is `<`.  Rounding and overflow are outside the model.
-/

namespace Actl.Geo

variable {F : Type*}

/-! ## `point.hpp` -/

/-- `point<T, N>` (`point.hpp` 22-91): `N` coordinates.  The coordinatewise operators of lines
147-160 (`-p`, `l + r`, `l - r`) and 182-208 (product and ratio with a scalar) are the pointwise
operations Lean already has on functions. -/
abbrev Vec (F : Type*) (n : Nat) := Fin n → F

/-- `dot(l, r)`, `point.hpp` 210-218: the accumulating loop. -/
def dot [Add F] [Mul F] [Zero F] {n : Nat} (l r : Vec F n) : F :=
  (List.finRange n).foldl (fun res i => res + l i * r i) 0

/-- `dot(p)`, `point.hpp` 225-228. -/
def dotSelf [Add F] [Mul F] [Zero F] {n : Nat} (p : Vec F n) : F := dot p p

/-- `degenerate(point)`, `point.hpp` 235-242: the loop returns false at the first non-zero
coordinate. -/
def degenerate [Zero F] [DecidableEq F] {n : Nat} (p : Vec F n) : Bool :=
  (List.finRange n).all fun i => decide (p i = 0)

/-- `is_equal` on points, `point.hpp` 162-170: equality of the spans of coordinates. -/
def isEqual [DecidableEq F] {n : Nat} (l r : Vec F n) : Bool :=
  (List.finRange n).all fun i => decide (l i = r i)

/-- Comparison of two spans of one length (`point.hpp` 172-180 through
`range/operation/lexicographical_compare_range.hpp`): the first differing coordinate decides. -/
def lexLess [LinearOrder F] : List F → List F → Bool
  | a :: l, b :: r => if a < b then true else if b < a then false else lexLess l r
  | _, _ => false

/-- `less` on points, `point.hpp` 172-180. -/
def less [LinearOrder F] {n : Nat} (l r : Vec F n) : Bool :=
  lexLess (List.ofFn l) (List.ofFn r)

/-- `y_compare`, `point.hpp` 299-305. -/
def yCompare [LinearOrder F] (l r : Vec F 2) : Bool :=
  decide (l 1 < r 1) || (decide (l 1 = r 1) && decide (l 0 < r 0))

/-- `perpendicular`, `point.hpp` 307-311. -/
def perpendicular [Neg F] (p : Vec F 2) : Vec F 2 := ![-p 1, p 0]

/-- `cross`, `point.hpp` 323-332. -/
def cross [Mul F] [Sub F] (l r : Vec F 3) : Vec F 3 :=
  ![l 1 * r 2 - l 2 * r 1, l 2 * r 0 - l 0 * r 2, l 0 * r 1 - l 1 * r 0]

/-! ## `line.hpp` -/

/-- `endpoint`, `line.hpp` 14. -/
inductive Endpoint | free | closed | opened
deriving DecidableEq, Repr

/-- The numeric value of an endpoint, `line.hpp` 14. -/
def Endpoint.val : Endpoint → Nat
  | .free => 0
  | .closed => 1
  | .opened => 2

/-- `static_cast<endpoint>(x)`; the cast of 3 names no enumerator. -/
def Endpoint.ofVal : Nat → Option Endpoint
  | 0 => some .free
  | 1 => some .closed
  | 2 => some .opened
  | _ => none

/-- `combine`, `line.hpp` 18-22. -/
def combine (b e : Endpoint) : Nat := b.val ||| (e.val <<< 2)

/-- `line_kind`, `line.hpp` 38-45. -/
inductive LineKind | free | closedRay | openRay | closedSegment | halfOpenSegment | openSegment
deriving DecidableEq, Repr

/-- The byte of each enumerator, `line.hpp` 39-44. -/
def LineKind.val : LineKind → Nat
  | .free => combine .free .free
  | .closedRay => combine .closed .free
  | .openRay => combine .opened .free
  | .closedSegment => combine .closed .closed
  | .halfOpenSegment => combine .opened .closed
  | .openSegment => combine .opened .opened

/-- `begin(line_kind)`, `line.hpp` 24-26: the two low bits. -/
def LineKind.first (k : LineKind) : Endpoint := (Endpoint.ofVal (k.val &&& 3)).getD .free

/-- `end(line_kind)`, `line.hpp` 28-30: the remaining bits. -/
def LineKind.last (k : LineKind) : Endpoint := (Endpoint.ofVal (k.val >>> 2)).getD .free

/-- `is_valid`, `line.hpp` 32-35, on the byte of a kind. -/
def isValidKind (k : Nat) : Bool := decide (k >>> 2 ≤ k &&& 3) && decide (k &&& 3 < 3)

/-- `static_cast<line_kind>(byte)`; `none` for a byte that names no enumerator. -/
def LineKind.ofVal (x : Nat) : Option LineKind :=
  [LineKind.free, .closedRay, .openRay, .closedSegment, .halfOpenSegment, .openSegment].find?
    fun k => k.val == x

/-- `line<T, N, Kind>`, `line.hpp` 98-169.  The compile-time and the run-time kind
(`static_kind`, `any_kind`, lines 50-92) are both this field. -/
structure Line (F : Type*) (n : Nat) where
  /-- `begin`, line 104. -/
  start : Vec F n
  /-- `vector`, line 105. -/
  vector : Vec F n
  /-- `kind()`, lines 56-58 and 76-78. -/
  kind : LineKind

/-- `line::end()`, `line.hpp` 145-147. -/
def Line.stop [Add F] {n : Nat} (l : Line F n) : Vec F n := l.start + l.vector

/-- `line::operator()`, `line.hpp` 149-157. -/
def Line.at [Add F] [Mul F] {n : Nat} (l : Line F n) (t : F) : Vec F n := l.start + t • l.vector

/-- `line(a, b, kind)` with `vector = false`, `line.hpp` 115-124: the line through two points. -/
def Line.through [Sub F] {n : Nat} (a b : Vec F n) (kind : LineKind) : Line F n :=
  { start := a, vector := b - a, kind := kind }

/-- `make_any_line(a, akind, b, bkind)`, `line.hpp` 215-226: the ends are swapped when the kind of
the first is smaller.  `none` when the byte of the kind names no enumerator. -/
def makeAnyLine [Sub F] {n : Nat} (a : Vec F n) (ka : Endpoint) (b : Vec F n) (kb : Endpoint) :
    Option (Line F n) :=
  if ka.val < kb.val then
    (LineKind.ofVal (combine kb ka)).map (Line.through b a)
  else
    (LineKind.ofVal (combine ka kb)).map (Line.through a b)

/-! ## `plane.hpp` -/

/-- `plane<T, N>`, `plane.hpp` 15-54: `dot(normal, x) = d`. -/
structure Plane (F : Type*) (n : Nat) where
  /-- `normal`, line 18. -/
  normal : Vec F n
  /-- `d`, line 19. -/
  d : F

/-- `plane(normal, point)`, `plane.hpp` 27-29. -/
def Plane.throughPoint [Add F] [Mul F] [Zero F] {n : Nat} (normal p : Vec F n) : Plane F n :=
  { normal := normal, d := dot normal p }

/-- `plane::operator()`, `plane.hpp` 40-50. -/
def Plane.eval [Add F] [Mul F] [Zero F] [Sub F] {n : Nat} (pl : Plane F n) (p : Vec F n) : F :=
  dot pl.normal p - pl.d

/-- `make_plane2d`, `plane.hpp` 70-73. -/
def makePlane2d [Add F] [Mul F] [Zero F] [Sub F] [Neg F] (a b : Vec F 2) : Plane F 2 :=
  Plane.throughPoint (perpendicular (b - a)) a

/-- `make_plane3d`, `plane.hpp` 75-80. -/
def makePlane3d [Add F] [Mul F] [Zero F] [Sub F] (a b c : Vec F 3) : Plane F 3 :=
  Plane.throughPoint (cross (b - a) (c - a)) a

/-! ## `algorithm/area` -/

/-- `area(p0, p1)` in the plane, `area/point_point.hpp` 17-22. -/
def area [Mul F] [Sub F] (p0 p1 : Vec F 2) : F := p0 0 * p1 1 - p0 1 * p1 0

/-- `area(point, line)` in the plane, `area/point_line.hpp` 14-19. -/
def areaLine [Mul F] [Sub F] (p : Vec F 2) (l : Line F 2) : F := area (p - l.start) l.vector

/-- `cyclic_iterator::operator+=`, `range/iterator/cyclic_iterator.hpp` 48-58, on the position `i`
in a range of `cycle` elements.  (`it[k]` and `it + k` are this.) -/
def cyclicAdd (cycle i k : Int) : Int :=
  if k > 0 then i + (k - (if k ≥ cycle - i then cycle else 0))
  else i + (k + (if -k > i then cycle else 0))

/-- `cyclic_iterator::operator++`, `cyclic_iterator.hpp` 34-39. -/
def cyclicNext (cycle i : Int) : Int := if i + 1 = cycle then 0 else i + 1

/-- `cyclic_iterator::operator--`, `cyclic_iterator.hpp` 41-46. -/
def cyclicPrev (cycle i : Int) : Int := if i = 0 then cycle - 1 else i - 1

/-- `operator-` of two cyclic iterators, `cyclic_iterator.hpp` 60-68. -/
def cyclicDist (cycle i j : Int) : Int := if i - j ≥ 0 then i - j else i - j + cycle

/-- `it[k]` for a cyclic iterator at position `i` of `poly`; reading outside the range (impossible
for `|k| < size`) gives the zero point. -/
def cyclicAt [Zero F] {n : Nat} (poly : List (Vec F n)) (i k : Int) : Vec F n :=
  (poly[(cyclicAdd poly.length i k).toNat]?).getD 0

/-- The loop of `area(polygon)`, `area/simple_polygon.hpp` 24-27: `n` steps are left, the iterator
is at position `i`. -/
def polyAreaLoop [Add F] [Mul F] [Sub F] [Zero F] (poly : List (Vec F 2)) : Nat → Int → F → F
  | 0, _, res => res
  | n + 1, i, res =>
    polyAreaLoop poly n (cyclicNext poly.length i)
      (res + cyclicAt poly i 0 0 * (cyclicAt poly i 1 1 - cyclicAt poly i (-1) 1))

/-- `area(simple_polygon)`, `area/simple_polygon.hpp` 16-29: twice the oriented area. -/
def polyArea [Add F] [Mul F] [Sub F] [Zero F] (poly : List (Vec F 2)) : F :=
  polyAreaLoop poly poly.length 0 0

/-! ## `algorithm/orientation` -/

/-- `orientation2d`, `orientation/orientation.hpp` 13-17. -/
inductive Turn | left | collinear | right
deriving DecidableEq, Repr

/-- `operator-` on `orientation2d`, `orientation.hpp` 19-21. -/
def Turn.neg : Turn → Turn
  | .left => .right
  | .collinear => .collinear
  | .right => .left

/-- `static_cast<orientation2d>(sgn(x))`, with `sgn` = three-way comparison with 0
(`numeric/comparison/sgn.hpp` 26). -/
def Turn.ofSign [Zero F] [LinearOrder F] (x : F) : Turn :=
  if x < 0 then .left else if 0 < x then .right else .collinear

/-- `orientation(l, r)` in the plane, `orientation/point_point.hpp` 14-19. -/
def orientation [Mul F] [Sub F] [Zero F] [LinearOrder F] (l r : Vec F 2) : Turn :=
  Turn.ofSign (area r l)

/-- `orientation(l, r, origin)`, `orientation/point_point.hpp` 21-29. -/
def orientation3 [Mul F] [Sub F] [Zero F] [LinearOrder F] (l r origin : Vec F 2) : Turn :=
  orientation (l - origin) (r - origin)

/-- `orientation(point, line)` in the plane, `orientation/point_line.hpp` 14-19. -/
def orientationLine [Mul F] [Sub F] [Zero F] [LinearOrder F] (p : Vec F 2) (l : Line F 2) : Turn :=
  orientation (p - l.start) l.vector

/-- The coordinates `l[i]`, `r[i]` from position `i` on, as the loops of `orientation` in `N`
dimensions read them. -/
abbrev Coords (F : Type*) := List (F × F)

/-- The second loop of `orientation` in `N` dimensions, `orientation/point_point.hpp` 40-44:
`l[i]`, `r[i]` are fixed, the rest are the later coordinates. -/
def minorsZero [Mul F] [Sub F] [Zero F] [LinearOrder F] (li ri : F) (rest : Coords F) : Bool :=
  rest.all fun c => decide (orientation ![li, c.1] ![ri, c.2] = .collinear)

/-- `collinear(l, r)` in `N` dimensions, `orientation/point_point.hpp` 31-45: the first loop skips
the leading zeros of `l` and gives up when `r` is not zero there. -/
def collinearLoop [Mul F] [Sub F] [Zero F] [LinearOrder F] : Coords F → Bool
  | [] => true
  | (a, b) :: rest =>
    if a = 0 then
      if b ≠ 0 then false else collinearLoop rest
    else minorsZero a b rest

/-- `collinear(l, r)` for vectors (`orientation.hpp` 50-53).  Overload resolution takes the planar
`orientation` (`point_point.hpp` 14-19) for `N = 2` and the general one (31-45) otherwise. -/
def collinear [Mul F] [Sub F] [Zero F] [LinearOrder F] : {n : Nat} → Vec F n → Vec F n → Bool
  | 2, l, r => decide (orientation l r = .collinear)
  | _, l, r => collinearLoop ((List.ofFn l).zip (List.ofFn r))

/-- `orientation(convex_polygon)`, `orientation/convex_polygon.hpp` 14-22. -/
def orientationConvex [Mul F] [Sub F] [Zero F] [LinearOrder F] : List (Vec F 2) → Turn
  | a :: b :: c :: _ => orientation3 a b c
  | _ => .collinear

/-! ## `detail` and `algorithm/within` -/

/-- `within`, `within/within.hpp` 13. -/
inductive Within | inside | border | outside
deriving DecidableEq, Repr

/-- `endpoint_test`, `detail/line_test.hpp` 13-25, on scalars. -/
def endpointTest [LinearOrder F] (k : Endpoint) (l r : F) : Bool :=
  match k with
  | .free => true
  | .closed => !decide (r < l)
  | .opened => decide (l < r)

/-- `line_test`, `detail/line_test.hpp` 27-33. -/
def lineTest [LinearOrder F] [Zero F] (k : LineKind) (num den : F) : Bool :=
  endpointTest k.first 0 num && endpointTest k.last num den

/-- `between_endpoints`, `detail/between_endpoints.hpp` 13-27. -/
def betweenEndpoints [Add F] [Mul F] [Sub F] [Zero F] [LinearOrder F] {n : Nat} (p : Vec F n)
    (l : Line F n) : Bool :=
  if l.kind.last = .free then endpointTest l.kind.first 0 (dot (p - l.start) l.vector)
  else if l.kind = .halfOpenSegment ∧ isEqual p l.start = true then false
  else endpointTest l.kind.last 0 (dot (l.start - p) (p - l.stop))

/-- `within(point, line)`, `within/line.hpp` 15-25. -/
def withinLine [Add F] [Mul F] [Sub F] [Zero F] [LinearOrder F] {n : Nat} (p : Vec F n)
    (l : Line F n) : Within :=
  if degenerate l.vector then
    if isEqual p l.start then .border else .outside
  else if !collinear (p - l.start) l.vector then .outside
  else if betweenEndpoints p l then .border else .outside

/-- `within(point, plane)`, `within/plane.hpp` 14-20. -/
def withinPlane [Add F] [Mul F] [Sub F] [Zero F] [DecidableEq F] {n : Nat} (p : Vec F n)
    (pl : Plane F n) : Within :=
  if pl.eval p = 0 then .border else .outside

/-- `within(point, triangle)`, `within/triangle.hpp` 18-36.  `signs[i]` is
`orientation(p, it[1], it[0])` for the cyclic iterator at vertex `i`; the second loop is unrolled. -/
def withinTriangle [Mul F] [Sub F] [Zero F] [LinearOrder F] (p a b c : Vec F 2) : Within :=
  let s0 := orientation3 p b a
  let s1 := orientation3 p c b
  let s2 := orientation3 p a c
  if s0 = s1 ∧ s1 = s2 then .inside
  else if s0 ≠ .collinear ∧ s0 = s1.neg then .outside
  else if s1 ≠ .collinear ∧ s1 = s2.neg then .outside
  else if s2 ≠ .collinear ∧ s2 = s0.neg then .outside
  else .border

/-! ## `algorithm/project`, `algorithm/reflect`, `algorithm/rotate` -/

/-- `project(line_scalar_policy, point, line)`, `project/point_line.hpp` 14-22. -/
def projectScalar [Add F] [Mul F] [Sub F] [Zero F] [Div F] {n : Nat} (p : Vec F n)
    (l : Line F n) : F :=
  dot (p - l.start) l.vector / dotSelf l.vector

/-- `project(point, line)`, `project/point_line.hpp` 24-29. -/
def projectLine [Add F] [Mul F] [Sub F] [Zero F] [Div F] {n : Nat} (p : Vec F n)
    (l : Line F n) : Vec F n :=
  l.at (projectScalar p l)

/-- `project(point, plane)`, `project/point_plane.hpp` 14-20. -/
def projectPlane [Add F] [Mul F] [Sub F] [Zero F] [Div F] {n : Nat} (p : Vec F n)
    (pl : Plane F n) : Vec F n :=
  p - (pl.eval p / dotSelf pl.normal) • pl.normal

/-- `project(point, point)`, `project/point_point.hpp` 14-19. -/
def projectPoint {n : Nat} (_p onto : Vec F n) : Vec F n := onto

/-- `reflect(point, across)`, `reflect/point.hpp` 13-16, given the projection on `across`. -/
def reflectBy [Add F] [Mul F] [Sub F] [One F] {n : Nat} (project : Vec F n → Vec F n)
    (p : Vec F n) : Vec F n :=
  ((1 : F) + 1) • project p - p

/-- `reflect` across a line. -/
def reflectLine [Add F] [Mul F] [Sub F] [Zero F] [One F] [Div F] {n : Nat} (p : Vec F n)
    (l : Line F n) : Vec F n :=
  reflectBy (fun q => projectLine q l) p

/-- `reflect` across a plane. -/
def reflectPlane [Add F] [Mul F] [Sub F] [Zero F] [One F] [Div F] {n : Nat} (p : Vec F n)
    (pl : Plane F n) : Vec F n :=
  reflectBy (fun q => projectPlane q pl) p

/-- `reflect` across a point. -/
def reflectPoint [Add F] [Mul F] [Sub F] [One F] {n : Nat} (p c : Vec F n) : Vec F n :=
  reflectBy (fun q => projectPoint q c) p

/-- `rotate(point, angle)`, `rotate/point2d.hpp` 14-21; the sine and cosine of the angle are given
by the two functions. -/
def rotate [Add F] [Mul F] [Zero F] {A : Type*} (sin cos : A → F) (p : Vec F 2) (angle : A) :
    Vec F 2 :=
  ![dot ![cos angle, sin angle] p, dot ![sin angle, cos angle] p]

/-- `rotate(point, angle, origin)`, `rotate/point2d.hpp` 23-31. -/
def rotateAround [Add F] [Mul F] [Zero F] [Sub F] {A : Type*} (sin cos : A → F) (p : Vec F 2)
    (angle : A) (origin : Vec F 2) : Vec F 2 :=
  origin + rotate sin cos (p - origin) angle

end Actl.Geo
