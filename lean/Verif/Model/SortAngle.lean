import Verif.Model.Geometry

/-!
# Sorting points by angle

Model of `include/actl/geometry/algorithm/point/sort_by_angle.hpp`.  `std::partition` and `std::sort`
of the standard library are parameters: they do not determine the order of equivalent elements.
-/

namespace Actl.Geo

variable {F : Type*}

/-- The two algorithms of the standard library that are called.  `partition` returns the two parts
of the range, the elements that satisfy the predicate first. -/
structure StdAlgorithms (E : Type*) where
  partition : (E → Bool) → List E → List E × List E
  sort : (E → E → Bool) → List E → List E

/-- The lambda `comp`, `sort_by_angle.hpp` 32-34 and 52-54: `left_turn(to_point(l), to_point(r))`. -/
def angleLess [Mul F] [Sub F] [Zero F] [LinearOrder F] {E : Type*} (toPoint : E → Vec F 2)
    (l r : E) : Bool :=
  decide (orientation (toPoint l) (toPoint r) = .left)

/-- `sort_by_angle(points)`, `sort_by_angle.hpp` 40-57.  `toPoint` is `get_to_point(points)`
(`multi_point.hpp` 46-49 and 77-81): the identity, or the point with the given index. -/
def sortByAngle [Mul F] [Sub F] [Zero F] [LinearOrder F] {E : Type*} (alg : StdAlgorithms E)
    (toPoint : E → Vec F 2) (points : List E) : List E :=
  let parts := alg.partition (fun x => degenerate (toPoint x)) points
  let halves := alg.partition (fun x => yCompare 0 (toPoint x)) parts.2
  parts.1 ++ (alg.sort (angleLess toPoint) halves.1 ++ alg.sort (angleLess toPoint) halves.2)

/-- `sort_by_angle(points, origin)`, `sort_by_angle.hpp` 17-37: `comp` does not use the origin. -/
def sortByAngleAround [Mul F] [Sub F] [Zero F] [LinearOrder F] {E : Type*} (alg : StdAlgorithms E)
    (toPoint : E → Vec F 2) (points : List E) (origin : Vec F 2) : List E :=
  let parts := alg.partition (fun x => isEqual origin (toPoint x)) points
  let halves := alg.partition (fun x => yCompare origin (toPoint x)) parts.2
  parts.1 ++ (alg.sort (angleLess toPoint) halves.1 ++ alg.sort (angleLess toPoint) halves.2)

end Actl.Geo
