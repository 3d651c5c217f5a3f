import Verif.Model.FloatLines

/-!
# Projections, nearest points and reflections in floating point

The functions of `Model/Geometry.lean` and `Model/Distance.lean` on points of a floating point type in any dimension: `fl` rounds the
exact result of every arithmetic operation, as in `Model/FloatGeometry.lean`; `sqrt` is the exact square root, which is rounded as
well.  A division by zero is `none` where it decides whether there is a result.
-/

namespace Actl.Geo

variable {F : Type*} [Field F] [LinearOrder F] {n : Nat}

/-- `operator-` of points, `point.hpp` 157-160. -/
def subV (fl : F → F) (p q : Vec F n) : Vec F n := fun i => fl (p i - q i)

/-- `line::end()`, `line.hpp` 145-147. -/
def stopV (fl : F → F) (l : Line F n) : Vec F n := fun i => fl (l.start i + l.vector i)

/-- `line::operator()`, `line.hpp` 149-157. -/
def atV (fl : F → F) (l : Line F n) (t : F) : Vec F n := fun i => fl (l.start i + fl (t * l.vector i))

/-- `project(line_scalar_policy, point, line)`, `project/point_line.hpp` 14-22. -/
def projectScalarR (fl : F → F) (p : Vec F n) (l : Line F n) : F :=
  fl (dotR fl (subV fl p l.start) l.vector / dotR fl l.vector l.vector)

/-- `project(point, line)`, `project/point_line.hpp` 24-29. -/
def projectLineR (fl : F → F) (p : Vec F n) (l : Line F n) : Vec F n := atV fl l (projectScalarR fl p l)

/-- `plane::operator()`, `plane.hpp` 40-50. -/
def evalR (fl : F → F) (pl : Plane F n) (p : Vec F n) : F := fl (dotR fl pl.normal p - pl.d)

/-- `project(point, plane)`, `project/point_plane.hpp` 14-20. -/
def projectPlaneR (fl : F → F) (p : Vec F n) (pl : Plane F n) : Vec F n :=
  fun i => fl (p i - fl (fl (evalR fl pl p / dotR fl pl.normal pl.normal) * pl.normal i))

/-- `reflect(point, across)`, `reflect/point.hpp` 13-16, given the projection on `across`. -/
def reflectByR (fl : F → F) (project : Vec F n → Vec F n) (p : Vec F n) : Vec F n :=
  fun i => fl (fl ((1 + 1) * project p i) - p i)

/-- `distance(point, plane)`, `distance/point_plane.hpp` 15-21.  `none`: the assertion of line 19 fails. -/
def distancePlaneR (fl sqrt : F → F) (p : Vec F n) (pl : Plane F n) : Option F :=
  if degenerate pl.normal then none
  else some (fl (absValue (evalR fl pl p) / normR fl sqrt pl.normal))

/-- `nearest(point, line)`, `nearest/point_line.hpp` 14-27: the second point of the pair.  `none`: the division by zero in `project`. -/
def nearestLineR (fl : F → F) (p : Vec F n) (l : Line F n) : Option (Vec F n) :=
  if l.kind.first ≠ .free ∧ ¬ 0 < dotR fl (subV fl p l.start) l.vector then some l.start
  else if l.kind.last ≠ .free ∧ ¬ dotR fl (subV fl p (stopV fl l)) l.vector < 0 then some (stopV fl l)
  else if dotR fl l.vector l.vector = 0 then none
  else some (projectLineR fl p l)

/-- `distance(point, line)` in the plane, `distance/point_line.hpp` 14-25.  `none`: the division by the length of a null vector. -/
def distanceLineR (fl sqrt : F → F) (p : Vec F 2) (l : Line F 2) : Option F :=
  if l.kind.first ≠ .free ∧ dotR fl (subV fl p l.start) l.vector < 0 then some (normR fl sqrt (subV fl p l.start))
  else if l.kind.last ≠ .free ∧ 0 < dotR fl (subV fl p (stopV fl l)) l.vector then some (normR fl sqrt (subV fl p (stopV fl l)))
  else if normR fl sqrt l.vector = 0 then none
  else some (fl (absValue (areaR fl (subR fl p l.start) l.vector) / normR fl sqrt l.vector))

end Actl.Geo
