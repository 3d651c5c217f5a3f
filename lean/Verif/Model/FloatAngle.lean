import Verif.Model.FloatGeometry
import Verif.Model.SortAngle

/-!
# Sorting points by angle with floating point coordinates

`sort_by_angle.hpp` as in `Model/SortAngle.lean`, with `fl` rounding the result of every operation (`Model/FloatGeometry.lean`).  The other
comparisons, with the origin, are exact.
-/

namespace Actl.Geo

variable {F : Type*} [Field F] [LinearOrder F]

/-- `orientation(l, r)`, `orientation/point_point.hpp` 14-19. -/
def orientationR (fl : F → F) (l r : Vec F 2) : Turn := Turn.ofSign (areaR fl r l)

/-- The lambda `comp`, `sort_by_angle.hpp` 52-54. -/
def angleLessR (fl : F → F) {E : Type*} (toPoint : E → Vec F 2) (l r : E) : Bool :=
  decide (orientationR fl (toPoint l) (toPoint r) = .left)

/-- `sort_by_angle(points)`, `sort_by_angle.hpp` 40-57. -/
def sortByAngleR (fl : F → F) {E : Type*} (alg : StdAlgorithms E) (toPoint : E → Vec F 2) (points : List E) : List E :=
  let parts := alg.partition (fun x => degenerate (toPoint x)) points
  let halves := alg.partition (fun x => yCompare 0 (toPoint x)) parts.2
  parts.1 ++ (alg.sort (angleLessR fl toPoint) halves.1 ++ alg.sort (angleLessR fl toPoint) halves.2)

end Actl.Geo
