import Verif.Model.Geometry

/-!
# Distances, nearest points and crossing tests

Model of `include/actl/geometry/algorithm/distance`, `nearest/point_*.hpp`, `within/sphere.hpp` and
`crosses/{plane_plane,plane_sphere,sphere_sphere,point}.hpp`.

As in `Verif.Model.Geometry` the arithmetic is exact.  `square_root` of the code is a parameter
`sqrt` of every function that uses it.  A division by zero, where the code computes `0/0` or `x/0`,
is `none`.
-/

namespace Actl.Geo

variable {F : Type*}

/-- `sphere<T, N>`, `sphere.hpp` 16-40. -/
structure Sphere (F : Type*) (n : Nat) where
  /-- `center`, line 19. -/
  center : Vec F n
  /-- `radius`, line 20. -/
  radius : F

/-- `degenerate(sphere)`, `sphere.hpp` 49-52. -/
def Sphere.degenerate [Zero F] [LinearOrder F] {n : Nat} (s : Sphere F n) : Bool :=
  !decide (0 < s.radius)

/-- `norm(point)`, `point/norm.hpp` 14-17. -/
def norm [Add F] [Mul F] [Zero F] (sqrt : F → F) {n : Nat} (p : Vec F n) : F := sqrt (dotSelf p)

/-- `area(p0, p1)` in every dimension, `area/point_point.hpp` 17-31. -/
def areaN [Add F] [Mul F] [Sub F] [Zero F] (sqrt : F → F) : {n : Nat} → Vec F n → Vec F n → F
  | 2, p0, p1 => area p0 p1
  | 3, p0, p1 => sqrt (dotSelf (cross p0 p1))
  | _, p0, p1 => sqrt (dotSelf p0 * dotSelf p1 - dot p0 p1 * dot p0 p1)

/-- `abs`; `numeric/abs.hpp`: the number or its negation. -/
def absValue [Zero F] [Neg F] [LinearOrder F] (x : F) : F := if x < 0 then -x else x

/-- `distance(point, point)`, `distance/point_point.hpp` 14-19. -/
def distancePoint [Add F] [Mul F] [Sub F] [Zero F] (sqrt : F → F) {n : Nat} (p0 p1 : Vec F n) : F :=
  norm sqrt (p0 - p1)

/-- `distance(point, line)`, `distance/point_line.hpp` 14-25.  `none`: the division by the length of
a null vector, line 24. -/
def distanceLine [Add F] [Mul F] [Sub F] [Zero F] [Div F] [Neg F] [LinearOrder F] (sqrt : F → F)
    {n : Nat} (p : Vec F n) (l : Line F n) : Option F :=
  if l.kind.first ≠ .free ∧ dot (p - l.start) l.vector < 0 then some (norm sqrt (p - l.start))
  else if l.kind.last ≠ .free ∧ 0 < dot (p - l.stop) l.vector then some (norm sqrt (p - l.stop))
  else if norm sqrt l.vector = 0 then none
  else some (absValue (areaN sqrt (p - l.start) l.vector) / norm sqrt l.vector)

/-- `distance(point, plane)`, `distance/point_plane.hpp` 15-21.  `none`: the assertion of line 19
fails. -/
def distancePlane [Add F] [Mul F] [Sub F] [Zero F] [Div F] [Neg F] [LinearOrder F] (sqrt : F → F)
    {n : Nat} (p : Vec F n) (pl : Plane F n) : Option F :=
  if degenerate pl.normal then none
  else some (absValue (pl.eval p) / norm sqrt pl.normal)

/-- `nearest(point, line)`, `nearest/point_line.hpp` 14-27: the second point of the pair (the first
is the argument).  `none`: the division by zero in `project`. -/
def nearestLine [Add F] [Mul F] [Sub F] [Zero F] [Div F] [LinearOrder F] {n : Nat} (p : Vec F n)
    (l : Line F n) : Option (Vec F n) :=
  if l.kind.first ≠ .free ∧ ¬ 0 < dot (p - l.start) l.vector then some l.start
  else if l.kind.last ≠ .free ∧ ¬ dot (p - l.stop) l.vector < 0 then some l.stop
  else if dotSelf l.vector = 0 then none
  else some (projectLine p l)

/-- `nearest(point, plane)`, `nearest/point_plane.hpp` 14-19: the second point of the pair.  `none`:
the division by zero in `project`. -/
def nearestPlane [Add F] [Mul F] [Sub F] [Zero F] [Div F] [DecidableEq F] {n : Nat} (p : Vec F n)
    (pl : Plane F n) : Option (Vec F n) :=
  if dotSelf pl.normal = 0 then none else some (projectPlane p pl)

/-- `static_cast<within>(1 + compare3way(x, y))`, `within/sphere.hpp` 19-21 (`compare3way`:
`numeric/comparison/compare3way.hpp`, -1, 0 or 1; `within`: `within/within.hpp` 13). -/
def Within.ofCompare [LinearOrder F] (x y : F) : Within :=
  if x < y then .inside else if y < x then .outside else .border

/-- `within(point, sphere)`, `within/sphere.hpp` 15-22. -/
def withinSphere [Add F] [Mul F] [Sub F] [Zero F] [LinearOrder F] (sqrt : F → F) {n : Nat}
    (p : Vec F n) (s : Sphere F n) : Within :=
  Within.ofCompare (distancePoint sqrt p s.center) s.radius

/-- `crosses(point, sphere)`, `crosses/point.hpp` 15-18. -/
def crossesPointSphere [Add F] [Mul F] [Sub F] [Zero F] [LinearOrder F] (sqrt : F → F) {n : Nat}
    (p : Vec F n) (s : Sphere F n) : Bool :=
  decide (withinSphere sqrt p s = .border)

/-- `crosses(point, plane)`, `crosses/point.hpp` 15-18. -/
def crossesPointPlane [Add F] [Mul F] [Sub F] [Zero F] [DecidableEq F] {n : Nat} (p : Vec F n)
    (pl : Plane F n) : Bool :=
  decide (withinPlane p pl = .border)

/-- `crosses(sphere, sphere)`, `crosses/sphere_sphere.hpp` 15-22. -/
def crossesSpheres [Add F] [Mul F] [Sub F] [Zero F] [Neg F] [LinearOrder F] (sqrt : F → F) {n : Nat}
    (l r : Sphere F n) : Bool :=
  let dist := distancePoint sqrt l.center r.center
  !decide (dist < absValue (l.radius - r.radius)) && !decide (l.radius + r.radius < dist)

/-- `crosses(plane, sphere)`, `crosses/plane_sphere.hpp` 16-24. -/
def crossesPlaneSphere [Add F] [Mul F] [Sub F] [Zero F] [Neg F] [LinearOrder F] (sqrt : F → F)
    {n : Nat} (pl : Plane F n) (s : Sphere F n) : Bool :=
  let dist := absValue (pl.eval s.center)
  !decide (dist < s.radius * norm sqrt pl.normal)

/-- The loop of `crosses(plane, plane)`, `crosses/plane_plane.hpp` 22-24: the first position of a
non-zero coordinate among the remaining ones; `none` when the loop leaves the array. -/
def firstNonZero [Zero F] [DecidableEq F] {n : Nat} (v : Vec F n) : Option (Fin n) :=
  (List.finRange n).find? fun i => decide (v i ≠ 0)

/-- `crosses(plane, plane)`, `crosses/plane_plane.hpp` 15-28.  `none`: the assertion of line 19
fails (or the loop leaves the array). -/
def crossesPlanes [Add F] [Mul F] [Sub F] [Zero F] [LinearOrder F] {n : Nat} (lhs rhs : Plane F n) :
    Option Bool :=
  if degenerate lhs.normal || degenerate rhs.normal then none
  else if !collinear lhs.normal rhs.normal then some true
  else
    match firstNonZero lhs.normal with
    | none => none
    | some i => some (collinear ![lhs.normal i, lhs.d] ![rhs.normal i, rhs.d])

end Actl.Geo
